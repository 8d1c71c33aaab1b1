import Verif.Spec.Spaced
import Verif.Proofs.Relabel
import Verif.Proofs.WsInit

/-
The definitions with the whitespace applied are those of the grammar with explicit whitespace.
-/

namespace Treerack
open Spec Whitespace

/-- The name of the rewritten definition. -/
def Spec.toName (W : WGrammar Name) : Part Name → Name
  | .given n => n
  | .space => whitespaceName
  | .body => patchName [W.root, runes "wsroot"]
  | .rest n i => genName false (((W.item n i).map Prod.fst).getD []) n i
  | .several n i => genName true (((W.item n i).map Prod.fst).getD []) n i

/-- The definitions that occur. -/
def Occurs (P : Name → Prop) (W : WGrammar Name) : Part Name → Prop
  | .given n => Numbered n
  | .space => True
  | .body => True
  | .rest n i => P n ∧ ∃ x, W.item n i = some x ∧ P x.1 ∧ x.2.2 ≠ 1
  | .several n i => P n ∧ ∃ x, W.item n i = some x ∧ P x.1 ∧ x.2.2 ≠ 1

theorem ws_special : whitespaceName = [] ++ colon :: runes "ws" := by decide

theorem toName_inj {P : Name → Prop} (hP : NameScheme P) {W : WGrammar Name} {x y : Part Name} (hx : Occurs P W x)
    (hy : Occurs P W y) (h : toName W x = toName W y) : x = y := by
  have c1 : NoColon (runes "ws") := by unfold NoColon; decide
  have c2 : NoColon (runes "wsroot") := by unfold NoColon; decide
  have t1 : isNumber (runes "ws") = false := by decide
  have t2 : isNumber (runes "wsroot") = false := by decide
  have hsb : whitespaceName ≠ patchName [W.root, runes "wsroot"] := by
    rw [patchName2]
    intro hh
    have hh := congrArg (fun n => (parts n).getLast?) hh
    have e2 : (parts whitespaceName).getLast? = some (runes "ws") := by decide
    simp only [parts_append, parts_noColon c2, List.getLast?_append, List.getLast?_singleton, Option.some_or, e2,
      Option.some.injEq] at hh
    revert hh; decide
  have gws : ∀ {o a b i}, genName o a b i ≠ whitespaceName := by
    intro o a b i; rw [ws_special]; exact gen_ne_special c1 t1
  have gbody : ∀ {o a b i}, genName o a b i ≠ patchName [W.root, runes "wsroot"] := by
    intro o a b i; rw [patchName2]; exact gen_ne_special c2 t2
  have nws : ∀ {n}, Numbered n → n ≠ whitespaceName := by
    intro n hn; rw [ws_special]; exact orig_ne_special hn c1 t1
  have nbody : ∀ {n}, Numbered n → n ≠ patchName [W.root, runes "wsroot"] := by
    intro n hn; rw [patchName2]; exact orig_ne_special hn c2 t2
  cases x with
  | given n =>
    cases y with
    | given m => exact congrArg _ h
    | space => exact absurd h (nws hx)
    | body => exact absurd h (nbody hx)
    | rest m i => exact absurd h (orig_ne_gen hx)
    | several m i => exact absurd h (orig_ne_gen hx)
  | space =>
    cases y with
    | given m => exact absurd h.symm (nws hy)
    | space => rfl
    | body => exact absurd h hsb
    | rest m i => exact absurd h.symm gws
    | several m i => exact absurd h.symm gws
  | body =>
    cases y with
    | given m => exact absurd h.symm (nbody hy)
    | space => exact absurd h.symm hsb
    | body => rfl
    | rest m i => exact absurd h.symm gbody
    | several m i => exact absurd h.symm gbody
  | rest n i =>
    obtain ⟨p1, it, p2, p3, -⟩ := hx
    cases y with
    | given m => exact absurd h.symm (orig_ne_gen hy)
    | space => exact absurd h gws
    | body => exact absurd h gbody
    | rest m j =>
      obtain ⟨q1, jt, q2, q3, -⟩ := hy
      simp only [toName, p2, q2, Option.map_some, Option.getD_some] at h
      obtain ⟨-, -, rfl, rfl⟩ := genName_inj hP p3 q3 p1 q1 h
      rfl
    | several m j =>
      obtain ⟨q1, jt, q2, q3, -⟩ := hy
      simp only [toName, p2, q2, Option.map_some, Option.getD_some] at h
      exact absurd (genName_inj hP p3 q3 p1 q1 h).1 (by decide)
  | several n i =>
    obtain ⟨p1, it, p2, p3, -⟩ := hx
    cases y with
    | given m => exact absurd h.symm (orig_ne_gen hy)
    | space => exact absurd h gws
    | body => exact absurd h gbody
    | rest m j =>
      obtain ⟨q1, jt, q2, q3, -⟩ := hy
      simp only [toName, p2, q2, Option.map_some, Option.getD_some] at h
      exact absurd (genName_inj hP p3 q3 p1 q1 h).1 (by decide)
    | several m j =>
      obtain ⟨q1, jt, q2, q3, -⟩ := hy
      simp only [toName, p2, q2, Option.map_some, Option.getD_some] at h
      obtain ⟨-, -, rfl, rfl⟩ := genName_inj hP p3 q3 p1 q1 h
      rfl

/-! ### The items -/

section
variable {P : Name → Prop} {W : WGrammar Name}

/-- With the names of the rewritten definitions. -/
def named (W : WGrammar Name) (items : List (Part Name × Int × Int)) : List (Name × Int × Int) :=
  items.map fun x => (toName W x.1, x.2.1, x.2.2)

theorem lead_named (i : Nat) : named W (lead i) = (leadItems i).map SeqItem.ref := by
  unfold lead leadItems named
  by_cases hi : 0 < i
  · simp [hi, toName, wsItem_ref]
  · simp [hi]

theorem occurrences_named {sn : Name} {i : Nat} {it : SeqItem} (hn : it.Normal) (hw : W.item sn i = some it.ref) :
    named W (occurrences sn i it.ref.1 it.ref.2.1 it.ref.2.2) = [oneItem it, restItem it sn i].map SeqItem.ref := by
  simp only [named, occurrences, List.map_cons, List.map_nil, toName, hw, Option.map_some, Option.getD_some, oneItem_ref,
    restItem_ref sn i hn, hn.ref]
  rfl

theorem items_named {sn : Name} : ∀ (items : List SeqItem) (i : Nat), (∀ it ∈ items, it.Normal) →
    (∀ (k : Nat) it, items[k]? = some it → W.item sn (i + k) = some it.ref) →
    named W (spacedItems sn i (items.map SeqItem.ref)) = (applyToItems sn i items).2.map SeqItem.ref
  | [], i, _, _ => rfl
  | it :: items, i, hn, hw => by
    have ih := items_named items (i + 1) (fun x hx => hn x (by simp [hx])) (fun k x hx => by
      rw [show i + 1 + k = i + (k + 1) by omega]; exact hw (k + 1) x (by simpa using hx))
    have hn0 := hn it (by simp)
    have hw0 := hw 0 it (by simp)
    rw [Nat.add_zero] at hw0
    rw [applyToItems_cons]
    simp only [List.map_cons, spacedItems, List.map_append]
    have hsplit : ∀ a b, named W (a ++ b) = named W a ++ named W b := fun a b => List.map_append ..
    rw [hsplit, ih]
    congr 1
    unfold spacedItem
    by_cases h1 : it.max = 1
    · rw [if_pos (by rw [hn0.ref]; exact h1), hsplit, lead_named, applyToItem_once h1, List.map_append]
      simp only [named, List.map_cons, List.map_nil, toName]
    · rw [if_neg (by rw [hn0.ref]; exact h1)]
      by_cases h2 : 0 < it.min
      · rw [if_pos (by rw [hn0.ref]; exact h2), hsplit, lead_named, applyToItem_many h1 h2, List.map_append,
          occurrences_named hn0 hw0]
      · rw [if_neg (by rw [hn0.ref]; exact h2), applyToItem_opt h1 (by omega)]
        simp only [named, List.map_cons, List.map_nil, toName, hw0, Option.map_some, Option.getD_some]
        rw [hn0.ref]
        rfl

/-- The references of the items occur. -/
theorem lead_occurs (i : Nat) : ∀ y ∈ (lead i : List (Part Name × Int × Int)), Occurs P W y.1 := by
  intro y hy
  unfold lead at hy
  split at hy
  · simp only [List.mem_singleton] at hy; subst hy; trivial
  · simp at hy

theorem occurrences_occurs {sn : Name} {i : Nat} {x : Name × Int × Int} (hx : Numbered x.1) (hsn : P sn) (hp : P x.1)
    (hw : W.item sn i = some x) (hm : x.2.2 ≠ 1) {mn mx : Int} : ∀ y ∈ occurrences sn i x.1 mn mx, Occurs P W y.1 := by
  intro y hy
  simp only [occurrences, List.mem_cons, List.not_mem_nil, or_false] at hy
  rcases hy with rfl | rfl
  · exact hx
  · exact ⟨hsn, x, hw, hp, hm⟩

theorem items_occur {sn : Name} (hsn : P sn) : ∀ (items : List (Name × Int × Int)) (i : Nat),
    (∀ x ∈ items, Numbered x.1) → (∀ x ∈ items, x.2.2 ≠ 1 → P x.1) →
    (∀ (k : Nat) x, items[k]? = some x → W.item sn (i + k) = some x) →
    ∀ y ∈ spacedItems sn i items, Occurs P W y.1
  | [], _, _, _, _, y, hy => by simp [spacedItems] at hy
  | x :: items, i, hn, hp, hw, y, hy => by
    simp only [spacedItems, List.mem_append] at hy
    have hw0 := hw 0 x (by simp)
    rw [Nat.add_zero] at hw0
    rcases hy with hy | hy
    · unfold spacedItem at hy
      split at hy
      · rcases List.mem_append.1 hy with hy | hy
        · exact lead_occurs i y hy
        · simp only [List.mem_singleton] at hy
          subst hy; exact hn x (by simp)
      · rename_i h1
        split at hy
        · rcases List.mem_append.1 hy with hy | hy
          · exact lead_occurs i y hy
          · exact occurrences_occurs (hn x (by simp)) hsn (hp x (by simp) h1) hw0 h1 y hy
        · simp only [List.mem_singleton] at hy
          subst hy; exact ⟨hsn, x, hw0, hp x (by simp) h1, h1⟩
    · exact items_occur hsn items (i + 1) (fun z hz => hn z (by simp [hz])) (fun z hz => hp z (by simp [hz]))
        (fun k z hz => by rw [show i + 1 + k = i + (k + 1) by omega]; exact hw (k + 1) z (by simpa using hz)) y hy

/-- The generated definitions. -/
theorem generated_shape {sn : Name} : ∀ {items : List SeqItem} {i : Nat} {e : Def}, e ∈ (applyToItems sn i items).1 →
    ∃ k it, items[k]? = some it ∧ it.max ≠ 1 ∧
      (e = newSequence (genName false it.name sn (i + k)) { alias := true } [wsItem, oneItem it] ∨
       e = newSequence (genName true it.name sn (i + k)) { alias := true }
        (leadItems (i + k) ++ [oneItem it, restItem it sn (i + k)]))
  | [], _, e, h => by simp [applyToItems] at h
  | x :: xs, i, e, h => by
    rw [applyToItems_cons] at h
    rcases List.mem_append.1 h with h | h
    · refine ⟨0, x, rfl, ?_⟩
      by_cases h1 : x.max = 1
      · rw [applyToItem_once h1] at h; simp at h
      · refine ⟨h1, ?_⟩
        by_cases h2 : 0 < x.min
        · rw [applyToItem_many h1 h2] at h
          simp only [List.mem_singleton] at h
          exact Or.inl h
        · rw [applyToItem_opt h1 (by omega)] at h
          simp only [List.mem_cons, List.not_mem_nil, or_false] at h
          exact h
    · obtain ⟨k, it, h1, h2, h3⟩ := generated_shape h
      refine ⟨k + 1, it, h1, h2, ?_⟩
      rw [show i + (k + 1) = i + 1 + k by omega]
      exact h3

end

/-! ### The definitions -/

section
variable {cs : List Call} {s : Syntax} (h : Made cs s)
include h

theorem has_refs_numbered {P : Name → Prop} (hP : NameScheme P) (hpl : ∀ c ∈ cs, P c.name ∧ ∀ n ∈ c.refs, P n)
    {p : Ptr} {d : Def} (hp : s.Has p d) : ∀ n ∈ d.gdef.expr.refs, Numbered n := by
  obtain ⟨e, h1, rfl, c, hc, hraw⟩ := hp.raw h
  intro n hn
  rcases raw_cases hraw with ⟨i, neg, chars, ranges, h2⟩ | ⟨h2, -, -, -, -, h3⟩
  · have hk : e.kind = .char neg chars ranges := by rw [← plain_kind, h2]; rfl
    simp [Def.gdef, Def.initRanges, hk, Expr.refs] at hn
  · rw [plain_kind] at h3
    rcases h3 with ⟨os, -, hk, n', ct, rfl⟩ | ⟨items, hk, h3⟩
    · simp only [Def.gdef, Def.initRanges, hk, Expr.refs] at hn
      exact hP.numbered _ ((hpl _ hc).2 _ hn)
    · simp only [Def.gdef, Def.initRanges, hk, Expr.refs, List.map_map, List.mem_map, Function.comp_apply,
        normalizeItemRange_name] at hn
      obtain ⟨it0, hit0, rfl⟩ := hn
      rcases h3 with ⟨n', ct, rfl⟩ | h3
      · exact hP.numbered _ ((hpl _ hc).2 _ (List.mem_map.2 ⟨it0, hit0, rfl⟩))
      · obtain ⟨-, -, i, e', g1, -⟩ := h3 it0 hit0
        rw [g1]
        exact numbered_child (hP.numbered _ (hpl c hc).1) i

theorem has_noKeyword {p : Ptr} {d : Def} (hp : s.Has p d) : d.commitType.noKeyword = true ↔ RejectsKeywords cs d.name := by
  have hs := (made_called h).built.inv
  obtain ⟨e, h1, rfl, c, hc, hraw⟩ := hp.raw h
  rw [initRanges_commitType, initRanges_name]
  constructor
  · intro hn
    have hn' : e.plain.commitType.noKeyword = true := by rw [plain_commitType]; exact hn
    exact ⟨c, hc, by rw [← raw_noKeyword_name hraw hn', plain_name], raw_noKeyword hraw hn'⟩
  · rintro ⟨c', hc', hn, hnk⟩
    obtain ⟨r, hr, r1, r2, r3, -⟩ := raw_main c'
    obtain ⟨q, e', l1, l2, l3⟩ := raw_has h hc' hr
    have hne : e'.initRanges.name = e.initRanges.name := by
      rw [initRanges_name, initRanges_name, ← plain_name e', l3, r1, hn]
    obtain ⟨rfl, -⟩ := hs.has_inj l2 hp hne
    rw [h1] at l1; cases l1
    have : r.commitType.noKeyword = e.commitType.noKeyword := by rw [← l3, plain_commitType]
    rw [← this, r3]
    exact hnk

end

theorem map_given (W : WGrammar Name) (e : Expr Name) : (e.map Part.given).map (toName W) = e := by
  cases e with
  | char => rfl
  | choice os => simp [Expr.map, toName, Function.comp_def]
  | seq items => simp [Expr.map, toName, Function.comp_def]

theorem refs_map {N M : Type} (f : N → M) (e : Expr N) : (e.map f).refs = e.refs.map f := by
  cases e <;> simp [Expr.map, Expr.refs, Function.comp_def]

section
variable {cs : List Call} {s : Syntax} (h : Made cs s) {P : Name → Prop} (hP : NameScheme P)
  (hpl : ∀ c ∈ cs, P c.name ∧ ∀ n ∈ c.refs, P n)
include h hP hpl

/-- What a definition consists of. -/
theorem inner_named {p : Ptr} {d : Def} (hp : s.Has p d) (hw : d.commitType.whitespace = false) :
    d.wsRepl.gdef.expr = (s.wgrammar.inner d.name d.gdef.expr).map (toName s.wgrammar) ∧
    ∀ y ∈ (s.wgrammar.inner d.name d.gdef.expr).refs, Occurs P s.wgrammar y := by
  have hs := (made_called h).built.inv
  have hG : s.wgrammar.G d.name = some d.gdef := hs.has_grammar hp
  have ht := hs.has_tight hp
  rw [hw, Bool.or_false] at ht
  have hnum := has_refs_numbered h hP hpl hp
  have hplain : ∀ y ∈ (d.gdef.expr.map Part.given).refs, Occurs P s.wgrammar y := by
    intro y hy
    rw [refs_map] at hy
    obtain ⟨n, hn, rfl⟩ := List.mem_map.1 hy
    exact hnum n hn
  cases hr : d.replaced with
  | true =>
    have he := seq_gdef hr
    have hnw : d.commitType.noWhitespace = false := by
      unfold Def.replaced at hr
      simp only [Bool.and_eq_true, Bool.not_eq_true'] at hr
      exact hr.1
    rw [hnw] at ht
    have hitem : ∀ (k : Nat) x, (d.items.map SeqItem.ref)[k]? = some x → s.wgrammar.item d.name (0 + k) = some x := by
      intro k x hx
      unfold WGrammar.item
      rw [hG]
      have : d.gdef = ⟨d.gdef.name, d.gdef.alias, .seq (d.items.map SeqItem.ref)⟩ := by rw [← he]
      rw [this, Nat.zero_add]
      exact hx
    obtain ⟨g1, g2⟩ := has_gen h hpl hp hr
    have hin : s.wgrammar.inner d.name d.gdef.expr = .seq (spacedItems d.name 0 (d.items.map SeqItem.ref)) := by
      rw [he]; simp [WGrammar.inner, ht]
    rw [hin]
    constructor
    · have : d.wsRepl.gdef.expr = .seq ((applyToItems d.name 0 d.items).2.map SeqItem.ref) := by
        unfold Def.wsRepl; rw [if_pos hr]; rfl
      rw [this, ← items_named (W := s.wgrammar) d.items 0 (hs.has_items hp) (fun k it hk => hitem k _ (by simp [hk]))]
      rfl
    · intro y hy
      obtain ⟨z, hz, rfl⟩ := List.mem_map.1 hy
      refine items_occur g1 _ 0 ?_ ?_ hitem z hz
      · intro x hx
        exact hnum _ (by rw [he]; exact List.mem_map.2 ⟨x, hx, rfl⟩)
      · intro x hx hm
        obtain ⟨it, hit, rfl⟩ := List.mem_map.1 hx
        have hn := hs.has_items hp it hit
        rw [hn.ref] at hm ⊢
        exact g2 it hit hm
  | false =>
    have hin : s.wgrammar.inner d.name d.gdef.expr = d.gdef.expr.map .given := by
      cases he : d.gdef.expr with
      | char => rfl
      | choice => rfl
      | seq items =>
        rw [not_replaced_seq hr he] at ht
        simp [WGrammar.inner, ht]
    rw [hin, map_given]
    refine ⟨?_, hplain⟩
    unfold Def.wsRepl; rw [if_neg (by simp [hr])]

/-- Every definition with the whitespace applied is one of the grammar with explicit whitespace. -/
theorem spaced_named {r0 : Ptr} (hroot : s.root = some r0) {G : Grammar Name} {F : Name → Bool} (WG : WsGrammar s r0 G)
    (WF : WsFlags s r0 F) {n : Name} {gd : GDef Name} (hg : G n = some gd) :
    ∃ x gd', Occurs P s.wgrammar x ∧ toName s.wgrammar x = n ∧ relabel (toName s.wgrammar) (spaced s.wgrammar) x = some gd' ∧
      gd = gd'.map (toName s.wgrammar) ∧ (∀ y ∈ gd'.expr.refs, Occurs P s.wgrammar y) ∧
      (F n = true ↔ match x with
        | .given n => n ≠ s.wgrammar.root ∧ RejectsKeywords cs n
        | .body => RejectsKeywords cs s.wgrammar.root
        | _ => False) := by
  have hs := (made_called h).built.inv
  obtain ⟨dr, hdr, hrn⟩ := hs.has_root hroot
  have hrootW : s.wgrammar.root = dr.name := hrn.symm
  have hGr : s.wgrammar.G dr.name = some dr.gdef := hs.has_grammar hdr
  have hnr : ∀ {p : Ptr} {d : Def}, s.Has p d → p ≠ r0 → d.name ≠ s.wgrammar.root := by
    intro p d hp hpr he
    rw [hrootW] at he
    exact hpr (hs.has_inj hp hdr he).1
  have hrootws : dr.commitType.whitespace = false := by
    cases hww : dr.commitType.whitespace with
    | false => rfl
    | true =>
      exfalso
      have h1 := WG.root_ _ hdr
      have h2 := WG.ws r0 _ hdr hww
      rw [h1] at h2
      have := congrArg GDef.alias (Option.some.inj h2)
      simp [wsRootDef, Def.gdef, newSequence, Def.commitType] at this
  have halias : ∀ (d : Def), d.gdef.name = d.name ∧ d.gdef.alias = d.commitType.alias := fun d => ⟨rfl, rfl⟩
  have hm := WG.names n gd hg
  unfold Syntax.wsNames at hm
  rw [List.mem_append, List.mem_append, List.map_flatMap] at hm
  rcases hm with (hm | hm) | hm
  · obtain ⟨p, hp, hm⟩ := List.mem_flatMap.1 hm
    have hp' := List.mem_filter.1 hp
    obtain ⟨d0, h3, hd⟩ := hs.has hp'.1
    generalize d0.initRanges = d at hd
    have hw : d.commitType.whitespace = false := by
      have := hp'.2
      simpa [Syntax.commitOf, hd.2] using this
    unfold wsBlock at hm
    rw [hd.2] at hm
    obtain ⟨e, he, rfl⟩ := List.mem_map.1 hm
    rcases List.mem_append.1 he with he | he
    · -- generated
      have hGe := WG.gen p d hd hw e he
      rw [hg] at hGe
      obtain rfl := Option.some.inj hGe
      have hF := WF.gen p d hd hw e he
      unfold Def.wsGen at he
      split at he
      · rename_i hr
        obtain ⟨g1, g2⟩ := has_gen h hpl hd hr
        obtain ⟨k, it, k1, k2, k3⟩ := generated_shape he
        have hn := hs.has_items hd it (List.mem_of_getElem? k1)
        have hit : s.wgrammar.item d.name k = some it.ref := by
          unfold WGrammar.item
          rw [show s.wgrammar.G d.name = some d.gdef from hs.has_grammar hd]
          have : d.gdef = ⟨d.gdef.name, d.gdef.alias, .seq (d.items.map SeqItem.ref)⟩ := by rw [← seq_gdef hr]
          rw [this]
          simp [k1]
        have hPi : P it.ref.1 := by rw [hn.ref]; exact g2 it (List.mem_of_getElem? k1) k2
        have hNi : Numbered it.ref.1 := hP.numbered _ hPi
        have hMi : it.ref.2.2 ≠ 1 := by rw [hn.ref]; exact k2
        rw [Nat.zero_add] at k3
        rcases k3 with rfl | rfl
        · refine ⟨.rest d.name k, _, ⟨g1, _, hit, hPi, hMi⟩, ?_, by simp only [relabel, spaced, hit, Option.map_some, hidden, if_true]; rfl,
            ?_, ?_, ?_⟩
          · simp only [toName, hit, Option.map_some, Option.getD_some]
            rw [hn.ref]; rfl
          · simp only [GDef.map, toName, hit, Option.map_some, Option.getD_some, Expr.map, List.map_cons, List.map_nil]
            rw [hn.ref]
            show GDef.mk _ _ (.seq ([wsItem, oneItem it].map SeqItem.ref)) = _
            simp only [List.map_cons, List.map_nil, wsItem_ref, oneItem_ref]
            rfl
          · intro y hy
            simp only [Expr.refs, List.map_cons, List.map_nil, List.mem_cons, List.not_mem_nil, or_false] at hy
            rcases hy with rfl | rfl
            · trivial
            · exact hNi
          · rw [hF]; simp
        · refine ⟨.several d.name k, _, ⟨g1, _, hit, hPi, hMi⟩, ?_, by simp only [relabel, spaced, hit, Option.map_some, hidden, if_true]; rfl,
            ?_, ?_, ?_⟩
          · simp only [toName, hit, Option.map_some, Option.getD_some]
            rw [hn.ref]; rfl
          · have hex : named s.wgrammar (lead k ++ occurrences d.name k it.ref.1 it.ref.2.1 it.ref.2.2) =
                (leadItems k ++ [oneItem it, restItem it d.name k]).map SeqItem.ref := by
              have hsplit : ∀ a b, named s.wgrammar (a ++ b) = named s.wgrammar a ++ named s.wgrammar b := fun a b => List.map_append ..
              rw [hsplit, List.map_append, lead_named k, occurrences_named hn hit]
            show _ = GDef.mk (toName s.wgrammar (.several d.name k)) true
              (.seq (named s.wgrammar (lead k ++ occurrences d.name k it.ref.1 it.ref.2.1 it.ref.2.2)))
            rw [hex]
            simp only [toName, hit, Option.map_some, Option.getD_some]
            rw [hn.ref]
            rfl
          · intro y hy
            simp only [Expr.refs] at hy
            obtain ⟨z, hz, rfl⟩ := List.mem_map.1 hy
            rcases List.mem_append.1 hz with hz | hz
            · exact lead_occurs k z hz
            · exact occurrences_occurs hNi g1 hPi hit hMi z hz
          · rw [hF]; simp
      · simp at he
    · simp only [List.mem_singleton] at he
      subst he
      rw [wsRepl_name] at hg ⊢
      have hnum := has_orig h hP hpl hd
      have hGd : s.wgrammar.G d.name = some d.gdef := hs.has_grammar hd
      by_cases hpr : p = r0
      · subst hpr
        obtain rfl := Option.some.inj (hdr.2.symm.trans hd.2)
        rw [WG.root_ _ hd] at hg
        obtain rfl := Option.some.inj hg
        refine ⟨.given dr.name, ⟨dr.name, false, .seq [(.space, 0, -1), (.body, 1, 1), (.space, 0, -1)]⟩, hnum, rfl, ?_, ?_, ?_, ?_⟩
        · simp only [relabel, spaced, hGd, Option.map_some, hrootW, if_true]
          rfl
        · simp only [GDef.map, Expr.map, List.map_cons, List.map_nil, toName, hrootW]
          show GDef.mk _ _ (.seq _) = _
          simp only [List.map_cons, List.map_nil]
          congr 1
        · intro y hy
          simp only [Expr.refs, List.map_cons, List.map_nil, List.mem_cons, List.not_mem_nil, or_false] at hy
          rcases hy with rfl | rfl | rfl <;> trivial
        · rw [WF.root_ _ hd]
          simp [hrootW]
      · rw [WG.repl p d hd hw hpr] at hg
        obtain rfl := Option.some.inj hg
        have hne := hnr hd hpr
        obtain ⟨i1, i2⟩ := inner_named h hP hpl hd hw
        have hnws : d.name ∉ s.wgrammar.ws := by
          intro hm
          obtain ⟨q, e, q1, q2, q3⟩ := hs.has_ws.1 hm
          obtain ⟨-, rfl⟩ := hs.has_inj q1 hd q2
          rw [hw] at q3; cases q3
        refine ⟨.given d.name, ⟨d.name, d.commitType.alias, s.wgrammar.inner d.name d.gdef.expr⟩, hnum, rfl, ?_, ?_, i2, ?_⟩
        · simp only [relabel, spaced, hGd, Option.map_some, if_neg hne, hnws, decide_false, Bool.or_false, toName, (halias d).1,
            (halias d).2]
          split <;> rfl
        · simp only [GDef.map, ← i1]
          show GDef.mk d.wsRepl.name d.wsRepl.commitType.alias d.wsRepl.gdef.expr = _
          rw [wsRepl_name, wsRepl_commitType]
        · rw [WF.repl p d hd hw hpr]
          simp only [ne_eq, hne, not_false_eq_true, true_and]
          exact has_noKeyword h hd
  · obtain ⟨p, hp, hm⟩ := List.mem_filterMap.1 hm
    have hp' := List.mem_filter.1 hp
    obtain ⟨d, hd, rfl⟩ := Option.map_eq_some_iff.1 hm
    have hd : s.Has p d := ⟨hp'.1, hd⟩
    have hw : d.commitType.whitespace = true := by
      have := hp'.2
      simpa [Syntax.commitOf, hd.2] using this
    rw [WG.ws p d hd hw] at hg
    obtain rfl := Option.some.inj hg
    have hpr : p ≠ r0 := by
      rintro rfl
      obtain rfl := Option.some.inj (hdr.2.symm.trans hd.2)
      rw [hw] at hrootws; cases hrootws
    have hne := hnr hd hpr
    have hGd : s.wgrammar.G d.name = some d.gdef := hs.has_grammar hd
    have ht := hs.has_tight hd
    rw [hw, Bool.or_true] at ht
    have hin : s.wgrammar.inner d.name d.gdef.expr = d.gdef.expr.map .given := by
      cases he : d.gdef.expr with
      | char => rfl
      | choice => rfl
      | seq items => simp [WGrammar.inner, ht]
    have hmem : d.name ∈ s.wgrammar.ws := hs.has_ws.2 ⟨p, d, hd, rfl, hw⟩
    refine ⟨.given d.name, ⟨d.name, true, d.gdef.expr.map .given⟩, has_orig h hP hpl hd, rfl, ?_, ?_, ?_, ?_⟩
    · simp only [relabel, spaced, hGd, Option.map_some, if_neg hne, hmem, decide_true, Bool.or_true, if_true, toName, hin]
    · simp only [GDef.map, map_given]
    · intro y hy
      rw [refs_map] at hy
      obtain ⟨m, hm, rfl⟩ := List.mem_map.1 hy
      exact has_refs_numbered h hP hpl hd m hm
    · rw [WF.ws p d hd hw]
      simp only [ne_eq, hne, not_false_eq_true, true_and]
      exact has_noKeyword h hd
  · simp only [List.mem_cons, List.not_mem_nil, or_false] at hm
    rcases hm with rfl | rfl
    · rw [WG.merged, hs.merged] at hg
      obtain rfl := Option.some.inj hg
      refine ⟨.space, ⟨whitespaceName, true, .choice (s.wgrammar.ws.map .given)⟩, trivial, rfl, ?_, ?_, ?_, ?_⟩
      · simp only [relabel, spaced, hidden, Option.map_some, if_true, toName]
      · simp [GDef.map, Expr.map, toName, Function.comp_def]
      · intro y hy
        simp only [Expr.refs] at hy
        obtain ⟨m, hm, rfl⟩ := List.mem_map.1 hy
        obtain ⟨q, e, q1, rfl, -⟩ := hs.has_ws.1 hm
        exact has_orig h hP hpl q1
      · rw [WF.merged]; simp
    · rw [← hrn] at hg ⊢
      rw [WG.body _ hdr] at hg
      obtain rfl := Option.some.inj hg
      obtain ⟨i1, i2⟩ := inner_named h hP hpl hdr hrootws
      refine ⟨.body, ⟨patchName [dr.name, runes "wsroot"], true, s.wgrammar.inner dr.name dr.gdef.expr⟩, trivial, ?_, ?_, ?_, i2, ?_⟩
      · simp only [toName, hrootW]
      · simp only [relabel, spaced, hrootW, hGr, hidden, Option.map_some, if_true, toName]
      · simp only [GDef.map, ← i1]
      · rw [WF.body _ hdr, hrootW]
        exact has_noKeyword h hdr

end
end Treerack
