import Verif.Proofs.Failing
import Verif.Proofs.Outcome
import Verif.Props.Samples

/-
C43: which definition is named in a parse error.
-/

namespace Treerack.Spec

/-- The definitions that are named in the errors: those made for a symbol, when they are neither whitespace nor fail-pass
definitions. -/
def Act.reported (a : Act) : Bool := a.named && !a.call.commit.whitespace && !a.call.commit.failPass

end Treerack.Spec

namespace Treerack
open Spec Samples

/-- The origin of the name and of the flags of an object. -/
def OriginIn (as : List Act) (n : Name) (ct : Commit) : Prop :=
  ct.userDefined = true → ∃ a ∈ as, a.named = true ∧ (∃ x, n = a.call.name ++ x ∧ (x = [] ∨ x.head? = some colon)) ∧
    ct.whitespace = a.call.commit.whitespace ∧ ct.failPass = a.call.commit.failPass

theorem originIn_lasting (as : List Act) : Lasting (OriginIn as) where
  root := fun _ h hu => h hu
  alias := fun h hu => h hu
  internal := fun h hu => absurd (h.symm.trans hu) (by decide)
  body := by
    intro n ct h hu
    obtain ⟨a, ha, h1, ⟨x, rfl, h2⟩, h3⟩ := h hu
    refine ⟨a, ha, h1, ⟨x ++ colon :: runes "wsroot", by rw [patchName2, List.append_assoc], Or.inr ?_⟩, h3⟩
    rcases h2 with rfl | h2
    · rfl
    · cases x with
      | nil => cases h2
      | cons => exact h2

theorem origin_objects {as : List Act} {a : Act} (ha : a ∈ as) {d : Def} (hd : d ∈ a.objects) : OriginIn as d.name d.commitType := by
  intro hu
  have hk : d.kind.isChar = false := by
    cases hk : d.kind <;> simp_all [Def.commitType, DKind.isChar]
  obtain ⟨h1, h2⟩ := act_named hd hk
  rw [commitType_notChar hk] at hu ⊢
  refine ⟨a, ha, by rw [← h2]; exact hu, ⟨[], by simp [h1], Or.inl rfl⟩, ?_⟩
  have key : ∀ (c : Call) (ct : Commit), d ∈ c.objects ct → d.commit.whitespace = ct.whitespace ∧ d.commit.failPass = ct.failPass := by
    intro c ct hd
    cases c with
    | anyChar n _ =>
      simp only [Call.objects, List.mem_cons, List.not_mem_nil, or_false] at hd
      rcases hd with rfl | rfl
      · cases hk
      · exact ⟨rfl, rfl⟩
    | class_ n _ neg cs rs =>
      simp only [Call.objects, List.mem_cons, List.not_mem_nil, or_false] at hd
      rcases hd with rfl | rfl
      · cases hk
      · exact ⟨rfl, rfl⟩
    | charSequence n _ cs =>
      simp only [Call.objects, List.mem_append, List.mem_map, List.mem_cons, List.not_mem_nil, or_false] at hd
      rcases hd with ⟨x, -, rfl⟩ | rfl
      · cases hk
      · exact ⟨rfl, rfl⟩
    | sequence n _ items =>
      simp only [Call.objects, List.mem_cons, List.not_mem_nil, or_false] at hd
      subst hd; exact ⟨rfl, rfl⟩
    | choice n _ os =>
      simp only [Call.objects, List.mem_cons, List.not_mem_nil, or_false] at hd
      subst hd; exact ⟨rfl, rfl⟩
  cases a with
  | api c => exact key c { c.commit with userDefined := true } hd
  | document c => exact key c _ hd

theorem acts_history : ∀ (as : List Act) {s s' : Syntax}, History s → s.acts as = some s' → History s'
  | [], s, s', h, he => by
    simp only [Syntax.acts, Option.some.injEq] at he
    exact he ▸ h
  | a :: as, s, s', h, he => by
    simp only [Syntax.acts] at he
    have h1 : History (s.act a).1 := by
      cases a with
      | api c => exact .call c h
      | document c => exact .define c h
    generalize s.act a = x at he h1
    obtain ⟨s1, e⟩ := x
    cases e with
    | some e => cases he
    | none => exact acts_history as h1 he

theorem definitionPart_eq {n x : Name} (hn : n ≠ []) (hc : colon ∉ n) (hx : x = [] ∨ x.head? = some colon) :
    definitionPart (n ++ x) = n := by
  have h1 : n.findIdx? (· == colon) = none := by
    rw [List.findIdx?_eq_none_iff]
    intro r hr
    simp only [beq_eq_false_iff_ne]
    rintro rfl
    exact hc hr
  unfold definitionPart
  rw [List.findIdx?_append, h1]
  rcases hx with rfl | hx
  · simp
  · cases x with
    | nil => cases hx
    | cons y x =>
      simp only [List.head?_cons, Option.some.injEq] at hx
      subst hx
      have : 0 < n.length := List.length_pos_iff.2 hn
      simp [List.findIdx?_cons, this]

/-- C43: the definition named in a parse error is the root or a definition made for a symbol that is neither whitespace nor
fail-pass, and the error has the name that was given to it. -/
theorem C43_definition {as : List Act} {s s' : Syntax} {fuel : Nat} {input : List Rune} {rend : Option Nat} {o l c : Nat} {n : Name}
    (h : Syntax.acts {} as = some s)
    (hn : ∀ a ∈ as, a.named = true ∨ rootOf (as.map Act.call) = some a.call.name → a.call.name ≠ [] ∧ colon ∉ a.call.name)
    (hp : s.Parse fuel input rend = .ok (s', .error (.parseError o l c n))) :
    ∃ a ∈ as, n = a.call.name ∧ (a.reported = true ∨ rootOf (as.map Act.call) = some n) := by
  have C := made_called (acts_made h)
  have hs := C.built.inv
  have hall : s.heap.All (OriginIn as) := acts_all (originIn_lasting as) as [] (s := {}) (s' := s) rfl
    (by intro p d hd; simp at hd) (fun a ha d hd => origin_objects ha hd) h
  rcases Parse_cases hp with ⟨e, -, hx⟩ | ⟨root, y, h1, h2, h3, hx⟩
  · cases hx
  · obtain ⟨hall', r0, r1, k1, k2, k3⟩ := Init_names (originIn_lasting as) hs hall h1
    cases y with
    | ok t => cases hx
    | error e =>
      cases hx
      obtain ⟨root', g1, hcl⟩ := (acts_history as .empty h).initialized h1 |>.2.2.1.closed
      rw [h2] at g1 k2
      cases g1; cases k2
      obtain ⟨p, d, hd, hr, rfl⟩ := parseInput_name hcl h3
      simp only [Syntax.env, List.getElem?_map, Option.map_eq_some_iff] at hd
      obtain ⟨e, he, rfl⟩ := hd
      have hpn : e.toPDef.pname = e.name := rfl
      rw [hpn]
      rcases hr with rfl | hr
      · have hne : as ≠ [] := by
          rintro rfl
          simp only [Syntax.acts, Option.some.injEq] at h
          subst h
          cases k1
        obtain ⟨m, hm⟩ := rootOf_some (cs := as.map Act.call) (by simpa using hne)
        have hroot := C.root m hm
        have hname : e.name = m := by
          rw [← hroot]
          simp only [Syntax.rootName, k1, Option.map_some, Option.getD_some, ← k3]
          simp [Syntax.nameAt, he]
        obtain ⟨c, hc, rfl⟩ := rootOf_call hm
        obtain ⟨a, ha, rfl⟩ := List.mem_map.1 hc
        obtain ⟨h4, h5⟩ := hn a ha (Or.inr hm)
        have := definitionPart_eq (x := []) h4 h5 (Or.inl rfl)
        rw [List.append_nil] at this
        exact ⟨a, ha, by rw [hname, this], Or.inr (by rw [hname, this]; exact hm)⟩
      · have hr : (e.commitType.userDefined && !e.commitType.whitespace && !e.commitType.failPass) = true := hr
        simp only [Bool.and_eq_true, Bool.not_eq_true'] at hr
        obtain ⟨⟨u1, u2⟩, u3⟩ := hr
        obtain ⟨a, ha, h4, ⟨x, h5, h6⟩, h7, h8⟩ := hall' _ e he u1
        obtain ⟨j1, j2⟩ := hn a ha (Or.inl h4)
        refine ⟨a, ha, by rw [h5]; exact definitionPart_eq j1 j2 h6, Or.inl ?_⟩
        simp [Act.reported, h4, ← h7, ← h8, u2, u3]

/-! ### Examples -/

/-- `a:alias:failpass = "a"; space:ws = " "; <root>:root = a a` -/
def failPassCalls (root : String) : List Call := [
  .charSequence (runes "a") { alias := true, failPass := true } (runes "a"),
  .charSequence (runes "space") { whitespace := true } (runes " "),
  .sequence (runes root) { root := true } [item "a", item "a"]]

/-- The calls meet the conditions, and the errors name a definition, or the root, whose parser is called `r:wsroot`. -/
example : (Syntax.acts {} ((failPassCalls "r").map .api)).isSome = true ∧
    (∀ a ∈ (failPassCalls "r").map Act.api, a.call.name ≠ [] ∧ colon ∉ a.call.name) ∧
    error (run (failPassCalls "r") 50 (runes "a")) = some (.parseError 1 0 1 (runes "r")) ∧
    error (run sumWsCalls 50 (runes "1 + x")) = some (.parseError 4 0 4 (runes "digit")) ∧
    error (run sumWsCalls 50 (runes "1 2")) = some (.parseError 2 0 2 (runes "plus")) :=
  ⟨by decide +kernel, by decide +kernel, by decide +kernel, by decide +kernel, by decide +kernel⟩

/-- The condition that the name is not empty: a root without a name, which the API accepts, is reported with an internal
name. -/
theorem C43_empty_name_counterexample : (Syntax.acts {} ((failPassCalls "").map .api)).isSome = true ∧
    error (run (failPassCalls "") 50 (runes "a")) = some (.parseError 1 0 1 (runes ":wsroot")) :=
  ⟨by decide +kernel, by decide +kernel⟩

end Treerack
