import Verif.Proofs.Linked

/-
The keyword check, for keywords that are plain texts.
-/

namespace Treerack
open Spec

/-- The text from `i` to `j` is a keyword, and the definition must not match keywords. -/
def Env.blocked (env : Env) (input : List Rune) (p : Ptr) (i j : Nat) : Prop :=
  (∃ d, env.defs[p]? = some d ∧ d.commit.noKeyword = true) ∧ ∃ k ∈ env.keywords, Derives env.grammar input k i j

/-- A sequence of single characters. -/
def TextParser (env : Env) (k : Ptr) : Prop :=
  ∃ d is rs, env.defs[k]? = some d ∧ d.kind = .seq is rs true ∧ ∀ x ∈ is.zip rs, x.2 = (1, 1)

section
variable {env : Env} {R : Ptr → Prop} {input : List Rune} {rend : Option Nat} {H : Nat → Nat → Nat → Prop}

theorem InRange.one {k : Nat} (h : InRange 1 1 k) : k = 1 := by
  unfold InRange at h
  omega

theorem DerivesItems.one_iff {G : Grammar Ptr} {n : Ptr} {rest : List (Ptr × Int × Int)} {i j : Nat} :
    DerivesItems G input ((n, 1, 1) :: rest) i j ↔ ∃ m, Derives G input n i m ∧ DerivesItems G input rest m j := by
  constructor
  · intro h
    cases h with
    | cons h1 h2 h3 =>
      obtain rfl := InRange.one h2
      cases h1 with
      | succ h4 h5 =>
        cases h4
        exact ⟨_, h5, h3⟩
  · rintro ⟨m, h1, h2⟩
    exact .cons (.succ .zero h1) (by unfold InRange; omega) h2

/-- What a character derives. -/
theorem Derives.char_iff {p : Ptr} {d : PDef} {neg : Bool} {cs : List Rune} {rs : List (Rune × Rune)}
    (hd : env.defs[p]? = some d) (hk : d.kind = .char neg cs rs) {i j : Nat} :
    Derives env.grammar input p i j ↔ j = i + 1 ∧ ∃ t, input[i]? = some t ∧ matchChar cs rs neg t = true := by
  have hg := env.grammar_some hd
  constructor
  · intro h
    cases h with
    | char h1 h2 h3 h4 =>
      rw [hg] at h1; cases h1
      simp only [hk, PKind.expr] at h2
      cases h2
      exact ⟨rfl, _, h3, (matchChar_iff ..).2 h4⟩
    | choice h1 h2 => rw [hg] at h1; cases h1; simp [hk, PKind.expr] at h2
    | seq h1 h2 => rw [hg] at h1; cases h1; simp [hk, PKind.expr] at h2
  · rintro ⟨rfl, t, h1, h2⟩
    exact .char hg (by simp [hk, PKind.expr]) h1 ((matchChar_iff ..).1 h2)

theorem Derives.seq_iff {p : Ptr} {d : PDef} {is : List Ptr} {rs : List (Int × Int)} {ac : Bool}
    (hd : env.defs[p]? = some d) (hk : d.kind = .seq is rs ac) {i j : Nat} :
    Derives env.grammar input p i j ↔ DerivesItems env.grammar input (is.zip rs) i j := by
  have hg := env.grammar_some hd
  constructor
  · intro h
    cases h with
    | char h1 h2 => rw [hg] at h1; cases h1; simp [hk, PKind.expr] at h2
    | choice h1 h2 => rw [hg] at h1; cases h1; simp [hk, PKind.expr] at h2
    | seq h1 h2 h3 =>
      rw [hg] at h1; cases h1
      simp only [hk, PKind.expr] at h2
      cases h2
      exact h3
  · exact fun h => .seq hg (by simp [hk, PKind.expr]) h

/-- The items of a text. -/
def TextItems (env : Env) (its : List (Ptr × Int × Int)) : Prop :=
  ∀ x ∈ its, x.2 = (1, 1) ∧ ∃ d, env.defs[x.1]? = some d ∧ d.kind.isChar = true

theorem TextItems.length {its : List (Ptr × Int × Int)} (h : TextItems env its) {i j : Nat}
    (hd : DerivesItems env.grammar input its i j) : j = i + its.length := by
  induction its generalizing i with
  | nil => cases hd; rfl
  | cons x its ih =>
    obtain ⟨n, r⟩ := x
    obtain ⟨rfl, d, h1, h2⟩ := h (n, r) (by simp)
    obtain ⟨m, h3, h4⟩ := DerivesItems.one_iff.1 hd
    cases hk : d.kind with
    | char neg cs rs =>
      obtain ⟨rfl, -⟩ := (Derives.char_iff h1 hk).1 h3
      have := ih (fun x hx => h x (by simp [hx])) h4
      simp only [List.length_cons]
      omega
    | choice => simp [hk, PKind.isChar] at h2
    | seq => simp [hk, PKind.isChar] at h2

/-- Parsing a character, with or without a limit. -/
structure CharPost (env : Env) (input : List Rune) (rend : Option Nat) (H : Nat → Nat → Nat → Prop) (p : Ptr)
    (c c' : Ctx) : Prop where
  frame : Frame c c'
  inv : Inv env input rend H c'
  res : c'.res = c.res
  yes : c'.matchLast = true → c'.offset = c.offset + 1 ∧ Derives env.grammar input p c.offset (c.offset + 1) ∧
    (c.offset : Int) ≠ c.offsetLimit
  no : c'.matchLast = false → c'.offset = c.offset ∧
    ((c.offset : Int) = c.offsetLimit ∨ ∀ j, ¬ Derives env.grammar input p c.offset j)

theorem charParse_post (hv : replacementChar ∉ input) {p : Ptr} {d : PDef} {neg : Bool} {cs : List Rune}
    {rs : List (Rune × Rune)} (hd : env.defs[p]? = some d) (hk : d.kind = .char neg cs rs) {c : Ctx}
    (h : Inv env input rend H c) : (charParse neg cs rs c).Spec True True (CharPost env input rend H p c) := by
  unfold charParse
  refine Res.Spec.bind ((token_spec (ob := True) h).mono (fun _ => trivial) id fun _ h => h) ?_
  rintro ⟨tok, c'⟩ ht
  have hoff := ht.offset
  have hres := ht.res
  have hfr := ht.frame
  have hi := ht.inv
  simp only at hoff hres hfr hi
  have hlen : c'.offset ≤ c'.tokens.length := hi.off
  have fin : ((c.offset : Int) = c.offsetLimit ∨ ∀ j, ¬ Derives env.grammar input p c.offset j) →
      CharPost env input rend H p c ((if (c'.offset : Int) > c'.failOffset then
          { c' with failOffset := c'.offset, failing := none } else c').fail
        (if (c'.offset : Int) > c'.failOffset then
          { c' with failOffset := c'.offset, failing := none } else c').offset) := by
    intro hn
    split
    · refine ⟨(hfr.trans (.failOffset _ _ _)).trans (.fail _ _),
        (hi.setFail (by omega) (by exact_mod_cast hlen) (by simp)).fail hlen, hres, by simp [Ctx.fail], fun _ => ⟨hoff, hn⟩⟩
    · exact ⟨hfr.trans (.fail _ _), hi.fail hlen, hres, by simp [Ctx.fail], fun _ => ⟨hoff, hn⟩⟩
  cases tok with
  | none =>
    simp only [Bool.false_eq_true, if_false]
    refine fin ?_
    by_cases hl : (c.offset : Int) = c.offsetLimit
    · exact Or.inl hl
    · refine Or.inr fun j hj => ?_
      have := ht.none rfl hl hv
      obtain ⟨-, t, h1, -⟩ := (Derives.char_iff hd hk).1 hj
      rw [this] at h1; cases h1
  | some t =>
    obtain ⟨hin, hlt⟩ := ht.some t rfl
    simp only at hlt
    simp only
    split
    · rename_i hm
      refine ⟨hfr.trans (.success _ _), hi.success (by omega), by simpa [Ctx.success] using hres, fun _ => ?_, by simp [Ctx.success]⟩
      refine ⟨by simp [Ctx.success, hoff], (Derives.char_iff hd hk).2 ⟨rfl, t, hin, hm⟩, fun hl => ?_⟩
      have := ht.limit hl
      cases this
    · rename_i hm
      refine fin (Or.inr fun j hj => ?_)
      obtain ⟨-, t', h1, h2⟩ := (Derives.char_iff hd hk).1 hj
      rw [hin] at h1; cases h1
      exact hm h2

/-- How a text parsed under the limit `lim` ends. -/
inductive TextOut (env : Env) (input : List Rune) (k : Ptr) (d : PDef) (lim : Nat) (c c' : Ctx) : Prop
  | matched (t : Nat) : Derives env.grammar input k c.offset t → t ≤ lim → c'.matchLast = true → c'.offset = t →
      c'.res = (setGeneralizations c.offset t d.gens c.res).setMatch c.offset d.id t → TextOut env input k d lim c c'
  | failed : (∀ t, Derives env.grammar input k c.offset t → lim < t) → c'.res = c.res →
      (c'.matchLast = true → c.res.Has c.offset d.id c'.offset) → TextOut env input k d lim c c'

/-- How the loop over the characters ends. -/
def TextLoop (env : Env) (input : List Rune) (rend : Option Nat) (H : Nat → Nat → Nat → Prop) (d : PDef)
    (its : List (Ptr × Int × Int)) (lim from_ to : Nat) (c : Ctx) : SeqOut → Prop
  | .complete t c' => DerivesItems env.grammar input its to t ∧ t ≤ lim ∧ c'.res = c.res ∧ Frame c c' ∧
      Inv env input rend H c'
  | .returned c' => (∀ t, DerivesItems env.grammar input its to t → lim < t) ∧ c'.res = c.res ∧
      (c'.matchLast = true → c.res.Has from_ d.id c'.offset)

theorem seqLoop_text (hv : replacementChar ∉ input) {k : Ptr} {d : PDef} {lim from_ m : Nat} :
    ∀ (n : Nat) (its : List (Ptr × Int × Int)) (to : Nat) (c : Ctx), TextItems env its → Inv env input rend H c →
      c.offset = to → to ≤ lim → c.offsetLimit = (lim : Int) →
      (seqLoop (parse env m) k d true from_ n its 0 to c).Spec True True
        (TextLoop env input rend H d its lim from_ to c)
  | 0, _, _, _, _, _, _, _, _ => trivial
  | n + 1, [], to, c, _, hi, _, hl, _ => ⟨.nil, hl, rfl, .refl _, hi⟩
  | n + 1, (item, r) :: rest, to, c, ht, hi, ho, hl, hlim => by
    obtain ⟨rfl, e, he, hke⟩ := ht (item, r) (by simp)
    have hrest : TextItems env rest := fun x hx => ht x (by simp [hx])
    unfold seqLoop
    have hpost : (parse env m item c).Spec True True (CharPost env input rend H item c) := by
      cases m with
      | zero => trivial
      | succ m =>
        unfold parse
        rw [he]
        simp only
        split
        · rename_i hk
          exact charParse_post hv he hk hi
        · rename_i hk; simp [hk, PKind.isChar] at hke
        · rename_i hk; simp [hk, PKind.isChar] at hke
    refine Res.Spec.bind hpost ?_
    intro c' hc'
    split
    · rename_i hm
      simp only [Bool.not_eq_true'] at hm
      rw [if_neg (by omega)]
      obtain ⟨-, hn⟩ := hc'.no hm
      have hnone : ∀ t, DerivesItems env.grammar input ((item, 1, 1) :: rest) to t → lim < t := by
        intro t hdt
        have h1 := ht.length hdt
        obtain ⟨q, h2, -⟩ := DerivesItems.one_iff.1 hdt
        rcases hn with hn | hn
        · simp only [List.length_cons] at h1
          omega
        · rw [ho] at hn
          exact absurd h2 (hn q)
      refine Res.Spec.bind (P := fun c2 => c2.res = c.res ∧ (c2.matchLast = true → c.res.Has from_ d.id c2.offset)) ?_ ?_
      · unfold seqItemFailed unmarkUnless
        simp only [if_true]
        split
        · rename_i c2 hc2
          have key : c2.res = c.res ∧ (c2.matchLast = true → c.res.Has from_ d.id c2.offset) := by
            unfold Ctx.fromResults at hc2
            split at hc2
            · cases hc2
            · rename_i t hr
              cases hc2
              refine ⟨by simp [Ctx.success, hc'.res], fun _ => ?_⟩
              have := ((Results.longestResult_some ..).1 hr).2.1
              simpa [Ctx.success, hc'.res] using this
            · cases hc2
              exact ⟨by simp [Ctx.fail, hc'.res], by simp [Ctx.fail]⟩
          split
          · exact key
          · exact key
        · exact ⟨by simp [Ctx.fail, hc'.res], by simp [Ctx.fail]⟩
      · rintro c2 ⟨h1, h2⟩
        exact ⟨hnone, h1, h2⟩
    · rename_i hm
      simp only [Bool.not_eq_true', Bool.not_eq_false] at hm
      obtain ⟨h1, h2, h3⟩ := hc'.yes hm
      rw [ho] at h1 h2 h3
      have hlt : to < lim := by omega
      simp only [h1]
      rw [if_pos (by simp)]
      refine (seqLoop_text (lim := lim) hv n rest (to + 1) c' hrest hc'.inv h1 (by omega) (by rw [hc'.frame.lim]; exact hlim)).imp ?_
      intro out hout
      cases out with
      | complete t c2 =>
        obtain ⟨g1, g2, g3, g4, g5⟩ := hout
        exact ⟨DerivesItems.one_iff.2 ⟨_, h2, g1⟩, g2, by rw [g3, hc'.res], hc'.frame.trans g4, g5⟩
      | returned c2 =>
        obtain ⟨g1, g2, g3⟩ := hout
        refine ⟨fun t hdt => ?_, by rw [g2, hc'.res], fun hm => by rw [← hc'.res]; exact g3 hm⟩
        obtain ⟨q, h4, h5⟩ := DerivesItems.one_iff.1 hdt
        cases hk : e.kind with
        | char neg cs rs =>
          obtain ⟨rfl, -⟩ := (Derives.char_iff he hk).1 h4
          exact g1 t h5
        | choice => simp [hk, PKind.isChar] at hke
        | seq => simp [hk, PKind.isChar] at hke

/-- Parsing a keyword under a limit. -/
theorem parse_text (C : Closed env R) (hv : replacementChar ∉ input) {k : Ptr} {d : PDef} (hkw : k ∈ env.keywords)
    (hd : env.defs[k]? = some d) (ht : TextParser env k) (n lim : Nat) {c : Ctx} (hi : Inv env input rend H c)
    (hl : c.offset ≤ lim) (hlim : c.offsetLimit = (lim : Int)) :
    (parse env n k c).Spec True True (TextOut env input k d lim c) := by
  obtain ⟨d', is, rs, hd', hk, hone⟩ := ht
  rw [hd] at hd'; cases hd'
  cases n with
  | zero => trivial
  | succ n =>
    have hflag := C.kwflags hkw hd hk
    have htext : TextItems env (is.zip rs) := by
      intro x hx
      exact ⟨hone x hx, C.chars (C.keyword hkw) hd hk (List.of_mem_zip hx).1⟩
    unfold parse
    rw [hd]
    simp only [hk]
    unfold seqParse
    simp only [Bool.not_true, Bool.false_and, Bool.false_eq_true, if_false, if_true, hflag]
    refine Res.Spec.bind (seqLoop_text hv (n + 1) (is.zip rs) c.offset c htext hi rfl hl hlim) ?_
    intro out hout
    cases out with
    | returned c2 =>
      obtain ⟨g1, g2, g3⟩ := hout
      exact .failed (fun t h => g1 t ((Derives.seq_iff hd hk).1 h)) g2 g3
    | complete t c2 =>
      obtain ⟨g1, g2, g3, -, -⟩ := hout
      simp only [Res.bind_ok, Bool.false_eq_true, if_false, unmarkUnless, if_true]
      refine .matched t ((Derives.seq_iff hd hk).2 g1) g2 rfl rfl ?_
      simp only [Ctx.success]
      split <;> simp [g3]

/-- A text has only one end. -/
theorem TextParser.unique (C : Closed env R) {k : Ptr} (hR : R k) (ht : TextParser env k) {i j j' : Nat}
    (h : Derives env.grammar input k i j) (h' : Derives env.grammar input k i j') : j = j' := by
  obtain ⟨d, is, rs, hd, hk, hone⟩ := ht
  have htext : TextItems env (is.zip rs) := by
    intro x hx
    exact ⟨hone x hx, C.chars hR hd hk (List.of_mem_zip hx).1⟩
  rw [htext.length ((Derives.seq_iff hd hk).1 h), htext.length ((Derives.seq_iff hd hk).1 h')]

theorem Times.imp {D D' : Nat → Nat → Prop} (h : ∀ i j, D i j → D' i j) {k i j : Nat} (ht : Times D k i j) : Times D' k i j := by
  induction ht with
  | zero => exact .zero
  | succ h1 _ ih => exact .succ (h _ _ h1) ih

theorem Items.imp {D D' : Ptr → Nat → Nat → Prop} (h : ∀ p i j, D p i j → D' p i j) {its : List (Ptr × (Int × Int))} {i j : Nat}
    (hi : Items D its i j) : Items D' its i j := by
  induction hi with
  | nil => exact .nil
  | cons h1 h2 _ ih => exact .cons (h1.imp (h _)) h2 ih

/-- What is matched: texts derived from the grammar that are not the text of a keyword when the definition is a sequence that
must not match keywords. -/
def Allowed (env : Env) (input : List Rune) (p : Ptr) (i j : Nat) : Prop :=
  Derives env.grammar input p i j ∧ ∀ d is rs ac, env.defs[p]? = some d → d.kind = .seq is rs ac →
    d.commit.noKeyword = true → ∀ k ∈ env.keywords, TextParser env k → ¬ Derives env.grammar input k i j

def AllowedH (env : Env) (root : Ptr) (input : List Rune) (i id j : Nat) : Prop :=
  ∃ p d, Reach env root p ∧ env.defs[p]? = some d ∧ d.kind.isChar = false ∧ d.id = id ∧ Allowed env input p i j

theorem Missed.not (C : Closed env R) (hv : replacementChar ∉ input) {k : Ptr} {i j : Nat} (hkw : k ∈ env.keywords)
    (ht : TextParser env k) (h : Missed env input H k i j) : ¬ Derives env.grammar input k i j := by
  obtain ⟨hle, rend, n, c, c', hi, ho, hl, hp, hno⟩ := h
  intro hd
  obtain ⟨d, hk⟩ := C.def_ (C.keyword hkw)
  subst ho
  cases (parse_text C hv hkw hk ht n j hi hle hl).of_eq hp with
  | matched t h1 h2 h3 h4 h5 =>
    have := ht.unique C (C.keyword hkw) h1 hd
    rw [h3, h4, this] at hno
    simp at hno
  | failed h1 => exact absurd (h1 j hd) (by omega)

theorem Linked.allowed {root : Ptr} (L : Linked env root) (hv : replacementChar ∉ input) :
    Interp env (Reach env root) input (Allowed env input) (AllowedH env root input) where
  char := by
    intro p d neg cs rs i t hR hd hk hi hm
    refine ⟨(L.interp input).char hR hd hk hi hm, ?_⟩
    intro d' is rs ac hd' hk'
    rw [hd] at hd'; cases hd'; rw [hk] at hk'; cases hk'
  choice := by
    intro p d os o i j hR hd hk ho h
    refine ⟨(L.interp input).choice hR hd hk ho h.1, ?_⟩
    intro d' is rs ac hd' hk'
    rw [hd] at hd'; cases hd'; rw [hk] at hk'; cases hk'
  seq := by
    intro p d is rs ac i j hR hd hk h hm
    refine ⟨.seq (env.grammar_some hd) (by simp [hk, PKind.expr]) (DerivesItems.of_items (h.imp fun _ _ _ h => h.1)), ?_⟩
    intro d' is rs ac hd' hk' hnk k hkm ht
    rw [hd] at hd'; cases hd'
    exact (hm hnk k hkm).not L.closed hv hkm ht
  store := by
    intro p d i j hR hd hk h
    exact ⟨p, d, hR, hd, hk, rfl, h⟩
  load := by
    rintro p d i j hR hd hk ⟨q, e, hR', he, hk', hid, h⟩
    have := L.ids hR' hR he hd hk' hk hid
    subst this
    exact h
  gens := by
    intro p d g i j hR hd hk hg h
    obtain ⟨q, e, hR', he, hid, hgen⟩ := L.gens hR hd hk hg
    refine ⟨q, e, hR', he, hgen.nonchar he, hid, hgen.derives h.1, ?_⟩
    intro d' is rs ac hd' hk'
    cases hgen with
    | option h1 h2 h3 => rw [h1] at hd'; cases hd'; rw [h2] at hk'; cases hk'
    | nested h1 h2 h3 _ => rw [h1] at hd'; cases hd'; rw [h2] at hk'; cases hk'

end
end Treerack
