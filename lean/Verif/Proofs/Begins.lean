import Verif.Proofs.Keyword
import Verif.Proofs.Morphism
import Verif.Spec.Begins

/-
The position that is reported in a parse error: the input up to it is the beginning of something that the root derives.
-/

namespace Treerack
open Spec

/-! ### Beginnings -/

section
variable {N : Type} {G : Grammar N} {input : List Rune}

theorem DerivesItems.cons_append {x : N × Int × Int} {before : List (N × Int × Int)} {i m a k : Nat}
    (h1 : DerivesTimes G input x.1 k i m) (h2 : InRange x.2.1 x.2.2 k) (h3 : DerivesItems G input before m a) :
    DerivesItems G input (x :: before) i a := .cons h1 h2 h3

mutual

/-- Every position inside a derived part is a beginning. -/
theorem Derives.inside : ∀ {n : N} {i j o : Nat}, Derives G input n i j → i ≤ o → o ≤ j → Begins G input n i o
  | _, i, _, o, .char h1 h2 h3 h4, hi, hj => by
    rcases Nat.eq_or_lt_of_le hi with rfl | h
    · exact .here
    · obtain rfl : o = i + 1 := by omega
      exact .done (.char h1 h2 h3 h4)
  | _, _, _, _, .choice h1 h2 h3 h4, hi, hj => .choice h1 h2 h3 (Derives.inside h4 hi hj)
  | n, i, j, o, .seq h1 h2 h3, hi, hj => by
    rcases DerivesItems.inside h3 hi hj with h | ⟨before, x, mn, mx, after, k, a, b, e, g1, g2, g3, g4⟩
    · exact .done (.seq h1 h2 (h ▸ h3))
    · exact .seq h1 h2 e g1 g2 g3 g4

theorem DerivesItems.inside : ∀ {items : List (N × Int × Int)} {i j o : Nat}, DerivesItems G input items i j → i ≤ o → o ≤ j →
    j = o ∨ ∃ before x mn mx after k a b, items = before ++ (x, mn, mx) :: after ∧ DerivesItems G input before i a ∧
      DerivesTimes G input x k a b ∧ (0 < mx → (k : Int) < mx) ∧ Begins G input x b o
  | _, i, _, o, .nil, hi, hj => Or.inl (Nat.le_antisymm hi hj)
  | _, i, j, o, .cons (n := n) (mn := mn) (mx := mx) (items := items) (k := k) (m := m) h1 h2 h3, hi, hj => by
    by_cases hm : m ≤ o
    · rcases DerivesItems.inside h3 hm hj with h | ⟨before, x, mn', mx', after, k', a, b, e, g1, g2, g3, g4⟩
      · exact Or.inl h
      · exact Or.inr ⟨(n, mn, mx) :: before, x, mn', mx', after, k', a, b, by rw [e]; rfl, .cons h1 h2 g1, g2, g3, g4⟩
    · obtain ⟨k', b, h4, h5, h6⟩ := DerivesTimes.inside h1 hi (by omega)
      refine Or.inr ⟨[], n, mn, mx, items, k', i, b, rfl, .nil, h4, ?_, h6⟩
      intro hmx
      unfold InRange at h2
      omega

theorem DerivesTimes.inside : ∀ {n : N} {k i m o : Nat}, DerivesTimes G input n k i m → i ≤ o → o < m →
    ∃ k' b, DerivesTimes G input n k' i b ∧ k' < k ∧ Begins G input n b o
  | _, _, _, _, _, .zero, hi, hm => by omega
  | n, _, i, m, o, .succ (k := k) (m := q) h1 h2, hi, hm => by
    by_cases hq : q ≤ o
    · exact ⟨k, q, h1, by omega, Derives.inside h2 hq (by omega)⟩
    · obtain ⟨k', b, h3, h4, h5⟩ := DerivesTimes.inside h1 hi (by omega)
      exact ⟨k', b, h3, by omega, h5⟩

end

/-- Beginnings in another grammar. -/
theorem Morphism.begins {M : Type} {G' : Grammar M} {R : N → Prop} {f : N → M} (m : Morphism G G' R f) {p : N} {i o : Nat}
    (h : Begins G input p i o) : R p → Begins G' input (f p) i o := by
  induction h with
  | here => exact fun _ => .here
  | done h => exact fun hR => .done (m.derives hR h)
  | choice h1 h2 h3 _ ih =>
    intro hR
    obtain ⟨d, e1, e2⟩ := m.def_ _ hR
    rw [h1] at e1; cases e1
    exact .choice e2 (by simp [GDef.map, h2, Expr.map]) (List.mem_map.2 ⟨_, h3, rfl⟩)
      (ih (m.refs _ _ hR h1 _ (by rw [h2]; exact h3)))
  | @seq n d items before after x mn mx k i a b o h1 h2 h3 h4 h5 h6 _ ih =>
    intro hR
    obtain ⟨d', e1, e2⟩ := m.def_ _ hR
    rw [h1] at e1; cases e1
    have hx : ∀ y ∈ items, R y.1 := fun y hy => m.refs _ _ hR h1 _ (by rw [h2]; exact List.mem_map.2 ⟨y, hy, rfl⟩)
    have hRx : R x := hx (x, mn, mx) (by simp [h3])
    exact .seq (before := before.map fun y => (f y.1, y.2.1, y.2.2)) (after := after.map fun y => (f y.1, y.2.1, y.2.2)) e2
      (items := items.map fun y => (f y.1, y.2.1, y.2.2)) (x := f x) (mn := mn) (mx := mx) (by simp [GDef.map, h2, Expr.map]) (by simp [h3])
      (m.derivesItems (fun y hy => hx y (by simp [h3, hy])) h4) (m.derivesTimes hRx h5) h6 (ih hRx)

end

/-! ### Parsing -/

/-- All the positions that the context remembers. -/
structure GoodC (Good : Nat → Prop) (c : Ctx) : Prop where
  consumed : Good c.consumed
  fail : 0 ≤ c.failOffset → Good c.failOffset.toNat
  has : ∀ off id to, c.res.Has off id to → Good to

section
variable {env : Env} {R : Ptr → Prop} {input : List Rune} {rend : Option Nat} {H : Nat → Nat → Nat → Prop} {Good : Nat → Prop}

/-- What is found when `p` is parsed at `i` is good. -/
def Here (env : Env) (input : List Rune) (Good : Nat → Prop) (p : Ptr) (i : Nat) : Prop := ∀ o, Begins env.grammar input p i o → Good o

theorem GoodC.success {c : Ctx} (h : GoodC Good c) {o : Nat} (ho : Good o) : GoodC Good (c.success o) := by
  refine ⟨?_, h.fail, h.has⟩
  simp only [Ctx.success]
  split
  · exact ho
  · exact h.consumed

theorem GoodC.failed {c : Ctx} (h : GoodC Good c) {o : Nat} : GoodC Good (c.fail o) := ⟨h.consumed, h.fail, h.has⟩

theorem GoodC.offset {c : Ctx} (h : GoodC Good c) {o : Nat} : GoodC Good { c with offset := o } := ⟨h.consumed, h.fail, h.has⟩

theorem GoodC.setFail {c : Ctx} (h : GoodC Good c) {fo : Int} {f : Option Ptr} (hf : 0 ≤ fo → Good fo.toNat) :
    GoodC Good { c with failOffset := fo, failing := f } := ⟨h.consumed, hf, h.has⟩

theorem GoodC.setFailing {c : Ctx} (h : GoodC Good c) {ct : Commit} {p : Ptr} : GoodC Good (c.setFailing ct p) := by
  refine ⟨by simpa using h.consumed, ?_, by simpa using h.has⟩
  have : (c.setFailing ct p).failOffset = c.failOffset := by unfold Ctx.setFailing; split <;> rfl
  rw [this]
  exact h.fail

theorem GoodC.setRes {c : Ctx} (h : GoodC Good c) {r : Results} (hr : ∀ off id to, r.Has off id to → Good to) :
    GoodC Good { c with res := r } := ⟨h.consumed, h.fail, hr⟩

theorem GoodC.setMatch {c : Ctx} (h : GoodC Good c) {f i t : Nat} (ht : Good t) :
    GoodC Good { c with res := c.res.setMatch f i t } := by
  refine h.setRes fun off id to hh => ?_
  rcases (Results.has_setMatch ..).1 hh with h' | ⟨-, -, rfl⟩
  · exact h.has _ _ _ h'
  · exact ht

theorem GoodC.setNoMatch {c : Ctx} (h : GoodC Good c) {f i : Nat} : GoodC Good { c with res := c.res.setNoMatch f i } :=
  h.setRes fun off id to hh => h.has _ _ _ ((Results.has_setNoMatch ..).1 hh)

theorem GoodC.mark {c : Ctx} (h : GoodC Good c) {f i : Nat} : GoodC Good { c with res := c.res.markPending f i } :=
  h.setRes fun off id to hh => h.has off id to (by simpa using hh)

theorem GoodC.seqMark {c : Ctx} (h : GoodC Good c) {ac : Bool} {i : Nat} : GoodC Good (seqMark ac i c) := by
  unfold Treerack.seqMark
  split
  · exact h
  · exact h.mark

theorem setGeneralizations_good {f t : Nat} (ht : Good t) : ∀ (gs : List Nat) {r : Results}, (∀ off id to, r.Has off id to → Good to) →
    ∀ off id to, (setGeneralizations f t gs r).Has off id to → Good to
  | [], _, h => h
  | g :: gs, r, h => setGeneralizations_good ht gs (by
    intro off id to
    simp only
    split
    · intro hh
      rcases (Results.has_setMatch ..).1 hh with h' | ⟨-, -, rfl⟩
      · exact h _ _ _ h'
      · exact ht
    · exact h off id to)

theorem unmark_good {c : Ctx} {f i : Nat} (h : GoodC Good c) :
    ((c.res.unmarkPending f i).bind fun r => Res.ok { c with res := r }).Spec True True (GoodC Good) := by
  cases hu : c.res.unmarkPending f i with
  | panic => trivial
  | oof => trivial
  | ok r =>
    by_cases hl : i < c.res.isPending.length
    · obtain ⟨r', h1, h2, -⟩ := Results.unmarkPending_spec c.res f i hl
      rw [hu] at h1; cases h1
      exact h.setRes fun off id to hh => h.has _ _ _ ((Results.Has.congr h2).1 hh)
    · unfold Results.unmarkPending at hu
      simp_all

theorem unmarkUnless_good {c : Ctx} {ac : Bool} {f i : Nat} (h : GoodC Good c) :
    (unmarkUnless ac f i c).Spec True True (GoodC Good) := by
  unfold unmarkUnless
  split
  · exact h
  · exact unmark_good h

theorem fromResults_good {c c' : Ctx} {id : Nat} (h : GoodC Good c) (hc : c.fromResults id = some c') : GoodC Good c' := by
  unfold Ctx.fromResults at hc
  split at hc
  · cases hc
  · rename_i to hr
    cases hc
    exact h.success (h.has _ _ _ ((Results.longestResult_some ..).1 hr).2.1)
  · cases hc
    exact h.failed

theorem seqItemFailed_good {p : Ptr} {d : PDef} {ac : Bool} {f t : Nat} {c : Ctx} (h : GoodC Good c) :
    (seqItemFailed p d ac f t c).Spec True True (GoodC Good) := by
  unfold seqItemFailed
  simp only
  split
  · rename_i c' hc'
    have hg := fromResults_good h.offset hc'
    split
    · exact unmarkUnless_good (hg.setFail (by omega))
    · exact unmarkUnless_good hg
  · exact unmarkUnless_good h.offset.setFailing.failed

theorem charParse_good {neg : Bool} {cs : List Rune} {rs : List (Rune × Rune)} {c : Ctx} (hi : Inv env input rend H c)
    (h : GoodC Good c) (h0 : Good c.offset)
    (h1 : ∀ t, input[c.offset]? = some t → matchChar cs rs neg t = true → (c.offset : Int) ≠ c.offsetLimit → Good (c.offset + 1)) :
    (charParse neg cs rs c).Spec True True (fun c' => GoodC Good c' ∧
      (c'.matchLast = true → c'.offset = c.offset + 1 ∧ (c.offset : Int) ≠ c.offsetLimit)) := by
  unfold charParse
  refine Res.Spec.bind ((token_spec (ob := True) hi).mono (fun _ => trivial) id fun _ h => h) ?_
  rintro ⟨tok, c'⟩ ht
  have hoff := ht.offset
  have hg : GoodC Good c' := by
    refine ⟨by rw [ht.consumed]; exact h.consumed, by rw [ht.failOffset]; exact h.fail, by rw [ht.res]; exact h.has⟩
  simp only at hoff
  have fin : GoodC Good ((if (c'.offset : Int) > c'.failOffset then
          { c' with failOffset := c'.offset, failing := none } else c').fail
        (if (c'.offset : Int) > c'.failOffset then
          { c' with failOffset := c'.offset, failing := none } else c').offset) := by
    refine GoodC.failed ?_
    split
    · exact hg.setFail fun _ => by rw [Int.toNat_natCast, hoff]; exact h0
    · exact hg
  cases tok with
  | none =>
    simp only [Bool.false_eq_true, if_false]
    exact ⟨fin, by simp [Ctx.fail]⟩
  | some t =>
    simp only
    split
    · rename_i hm
      have hne : (c.offset : Int) ≠ c.offsetLimit := fun hl => by have := ht.limit hl; cases this
      refine ⟨hg.success ?_, fun _ => ⟨by simp [Ctx.success, hoff], hne⟩⟩
      rw [hoff]
      exact h1 t (ht.some t rfl).1 hm hne
    · exact ⟨fin, by simp [Ctx.fail]⟩

/-! ### Keywords that are texts -/

theorem seqLoop_text_good (C : Closed env R) (I : Interp env R input (Derives env.grammar input) H) {k : Ptr} {d : PDef} {lim from_ m : Nat} (hG : ∀ o, from_ ≤ o → o ≤ lim → Good o) :
    ∀ (n : Nat) (its : List (Ptr × Int × Int)) (to : Nat) (c : Ctx), TextItems env its → (∀ x ∈ its, R x.1) → Inv env input rend H c →
      c.offset = to → from_ ≤ to → to ≤ lim → c.offsetLimit = (lim : Int) → GoodC Good c →
      (seqLoop (parse env m) k d true from_ n its 0 to c).Spec True True (fun out => match out with
        | .complete t c' => from_ ≤ t ∧ t ≤ lim ∧ GoodC Good c'
        | .returned c' => GoodC Good c')
  | 0, _, _, _, _, _, _, _, _, _, _, _ => trivial
  | n + 1, [], to, c, _, _, hi, _, hf, hl, _, hg => ⟨hf, hl, hg⟩
  | n + 1, (item, r) :: rest, to, c, ht, hR, hi, ho, hf, hl, hlim, hg => by
    obtain ⟨rfl, e, he, hke⟩ := ht (item, r) (by simp)
    have hrest : TextItems env rest := fun x hx => ht x (by simp [hx])
    unfold seqLoop
    have hpost : (parse env m item c).Spec True True (fun c' => Post env input rend (Derives env.grammar input) H item c c' ∧
        GoodC Good c' ∧ (c'.matchLast = true → c'.offset = c.offset + 1 ∧ (c.offset : Int) ≠ c.offsetLimit)) := by
      cases m with
      | zero => trivial
      | succ m =>
        unfold parse
        rw [he]
        simp only
        split
        · rename_i hk
          refine ((charParse_spec (pb := True) (ob := True) I (fun _ => trivial) (hR (item, 1, 1) (by simp)) he hk hi).and
            (charParse_good hi hg (hG _ (by omega) (by omega)) ?_)).mono (fun _ => trivial) (fun _ => trivial) fun _ h => h
          intro t _ _ hne
          exact hG _ (by omega) (by omega)
        · rename_i hk; simp [hk, PKind.isChar] at hke
        · rename_i hk; simp [hk, PKind.isChar] at hke
    refine Res.Spec.bind hpost ?_
    rintro c' ⟨hc', hg', hyes⟩
    split
    · rename_i hm
      simp only [Bool.not_eq_true'] at hm
      rw [if_neg (by omega)]
      exact Res.Spec.bind (seqItemFailed_good hg') fun _ h => h
    · rename_i hm
      simp only [Bool.not_eq_true', Bool.not_eq_false] at hm
      obtain ⟨h1, h3⟩ := hyes hm
      rw [ho] at h1 h3
      have hlt : to < lim := by omega
      simp only [h1]
      rw [if_pos (by simp)]
      exact seqLoop_text_good C I hG n rest (to + 1) c' hrest (fun x hx => hR x (by simp [hx])) hc'.inv h1 (by omega) (by omega)
        (by rw [hc'.frame.lim]; exact hlim) hg'

theorem parse_text_good (C : Closed env R) (I : Interp env R input (Derives env.grammar input) H) {k : Ptr} (hkw : k ∈ env.keywords)
    (ht : TextParser env k) (n lim : Nat) {c : Ctx} (hi : Inv env input rend H c)
    (hl : c.offset ≤ lim) (hlim : c.offsetLimit = (lim : Int)) (hG : ∀ o, c.offset ≤ o → o ≤ lim → Good o) (hg : GoodC Good c) :
    (parse env n k c).Spec True True (GoodC Good) := by
  obtain ⟨d, is, rs, hd, hk, hone⟩ := ht
  cases n with
  | zero => trivial
  | succ n =>
    have hflag := C.kwflags hkw hd hk
    have htext : TextItems env (is.zip rs) := by
      intro x hx
      exact ⟨hone x hx, C.chars (C.keyword hkw) hd hk (List.of_mem_zip hx).1⟩
    unfold parse
    rw [hd]
    simp only [hk]
    unfold seqParse
    simp only [Bool.not_true, Bool.false_and, Bool.false_eq_true, if_false, if_true, hflag]
    refine Res.Spec.bind (seqLoop_text_good C I hG (n + 1) (is.zip rs) c.offset c htext
      (fun x hx => C.child (C.keyword hkw) hd (by rw [hk]; exact (List.of_mem_zip hx).1)) hi rfl (Nat.le_refl _) hl hlim hg) ?_
    intro out hout
    cases out with
    | returned c2 => exact hout
    | complete t c2 =>
      obtain ⟨g1, g2, g3⟩ := hout
      have gt := hG t g1 g2
      simp only [Res.bind_ok, Bool.false_eq_true, if_false, unmarkUnless, if_true]
      have g4 : GoodC Good { c2 with res := setGeneralizations c.offset t d.gens c2.res } :=
        g3.setRes (setGeneralizations_good gt _ g3.has)
      refine (GoodC.setMatch ?_ gt).success gt
      split
      · exact g4.setFail (by omega)
      · exact g4

/-! ### The parsers -/

/-- An occurrence of `item` at `b` that can follow, when the items are parsed from `i` on. -/
def AheadItems (D : Ptr → Nat → Nat → Prop) (its : List (Ptr × (Int × Int))) (i : Nat) (item : Ptr) (b : Nat) : Prop :=
  ∃ before mn mx after a k, its = before ++ (item, (mn, mx)) :: after ∧ Items D before i a ∧ Times (D item) k a b ∧ (0 < mx → (k : Int) < mx)

/-- The same, when there were already `k` occurrences of the first item. -/
def Ahead (D : Ptr → Nat → Nat → Prop) (its : List (Ptr × (Int × Int))) (k to : Nat) (item : Ptr) (b : Nat) : Prop :=
  match its with
  | [] => False
  | (x, (mn, mx)) :: rest =>
    (item = x ∧ ∃ n, Times (D x) n to b ∧ (0 < mx → ((k + n : Nat) : Int) < mx)) ∨
    ∃ n m, Times (D x) n to m ∧ InRange mn mx (k + n) ∧ AheadItems D rest m item b

theorem Ahead.items {D : Ptr → Nat → Nat → Prop} {its : List (Ptr × (Int × Int))} {to : Nat} {item : Ptr} {b : Nat}
    (h : Ahead D its 0 to item b) : AheadItems D its to item b := by
  match its, h with
  | (x, (mn, mx)) :: rest, Or.inl ⟨e, n, h1, h2⟩ =>
    subst e
    exact ⟨[], mn, mx, rest, to, n, rfl, .nil, h1, by simpa using h2⟩
  | (x, (mn, mx)) :: rest, Or.inr ⟨n, m, h1, h2, before, mn', mx', after, a, k, e, h3, h4, h5⟩ =>
    exact ⟨(x, (mn, mx)) :: before, mn', mx', after, a, k, by rw [e]; rfl, .cons h1 (by simpa using h2) h3, h4, h5⟩

theorem isKeywordLoop_good (C : Closed env R) (I : Interp env R input (Derives env.grammar input) H) {m : Nat}
    {f t : Nat} (hft : f ≤ t) (hG : ∀ o, f ≤ o → o ≤ t → Good o) : ∀ (kws : List Ptr) {c : Ctx},
    (∀ k ∈ kws, k ∈ env.keywords ∧ TextParser env k) → Inv env input rend H c → f ≤ c.tokens.length → c.offsetLimit = (t : Int) →
    GoodC Good c → (isKeywordLoop (parse env m) f t kws c).Spec True True (fun x => GoodC Good x.2)
  | [], c, _, _, _, _, h => h
  | kw :: kws, c, hk, hi, hf, hl, h => by
    unfold isKeywordLoop
    have h1 := hk kw (by simp)
    refine Res.Spec.bind (((parse_spec C I (env.bounds _) m kw { c with offset := f } (C.keyword h1.1) (hi.setOffset hf)).mono
      (fun _ => trivial) (fun _ => trivial) fun _ h => h).and
      (parse_text_good C I h1.1 h1.2 m t (c := { c with offset := f }) (hi.setOffset hf) hft hl hG h.offset) |>.mono
      (fun _ => trivial) (fun _ => trivial) fun _ h => h) ?_
    rintro c' ⟨hp, hg⟩
    split
    · exact hg
    · refine isKeywordLoop_good C I hft hG kws (fun k hk' => hk k (by simp [hk'])) hp.inv ?_ ?_ hg
      · have := hp.frame.tokLen
        simp only at this
        omega
      · rw [hp.frame.lim]; exact hl

theorem checked_good (C : Closed env R) (I : Interp env R input (Derives env.grammar input) H) {m f t : Nat} {b : Bool} {c : Ctx}
    (hkw : b = true → ∀ k ∈ env.keywords, TextParser env k) (hft : f ≤ t) (hG : ∀ o, f ≤ o → o ≤ t → Good o)
    (hi : Inv env input rend H c) (hf : f ≤ c.tokens.length) (h : GoodC Good c) :
    (if b = true then isKeyword (parse env m) env.keywords c f t else .ok (false, c)).Spec True True (fun x => GoodC Good x.2) := by
  split
  · rename_i hb
    unfold isKeyword
    refine Res.Spec.bind (isKeywordLoop_good C I hft hG env.keywords (c := { c with offsetLimit := (t : Int) })
      (fun k hk => ⟨hk, hkw hb k hk⟩) hi.setLimit hf rfl ⟨h.consumed, h.fail, h.has⟩) fun x hx => ?_
    exact ⟨hx.consumed, hx.fail, hx.has⟩
  · exact h

section
variable {m : Nat} (hrec : ∀ q c, R q → Inv env input rend H c → Here env input Good q c.offset → GoodC Good c →
  (parse env m q c).Spec True True fun c' => Post env input rend (Derives env.grammar input) H q c c' ∧ GoodC Good c')
include hrec

theorem choicePass_good (I : Interp env R input (Derives env.grammar input) H) {p : Ptr} {d : PDef} {os : List Ptr} (hR : R p)
    (hos : ∀ o ∈ os, R o) (hd : env.defs[p]? = some d) (hk : d.kind = .choice os) {from_ : Nat} {c1 : Ctx}
    (hH : Here env input Good p from_) : ∀ (opts : List Ptr) (st : ChoiceSt), (∀ o ∈ opts, o ∈ os) →
      ChInv env input rend (Derives env.grammar input) H p d.id from_ c1 st → GoodC Good st.c → (0 ≤ st.failOffset → Good st.failOffset.toNat) →
      (choicePass (parse env m) d.id from_ opts st).Spec True True (fun st' =>
        ChInv env input rend (Derives env.grammar input) H p d.id from_ c1 st' ∧ GoodC Good st'.c ∧
          (0 ≤ st'.failOffset → Good st'.failOffset.toNat))
  | [], st, _, h, hg, hf => ⟨h, hg, hf⟩
  | o :: opts, st, ho, h, hg, hf => by
    unfold choicePass
    have hHo : Here env input Good o st.c.offset := by
      rw [h.off]
      exact fun x hx => hH x (.choice (env.grammar_some hd) (by simp [hk, PKind.expr]) (ho o (by simp)) hx)
    refine Res.Spec.bind (hrec o st.c (hos o (ho o (by simp))) h.inv hHo hg) ?_
    rintro c' ⟨hc', hg'⟩
    have hfr := h.frame.trans hc'.frame
    have htl := hc'.frame.tokLen
    have hol : from_ ≤ c'.tokens.length := by
      have := h.inv.off; rw [h.off] at this; omega
    generalize hst1 : (if !c'.matchLast && decide (c'.failOffset > st.failOffset) then
          { st with failOffset := c'.failOffset, failing := c'.failing } else st) = st1
    have e1 : st1.mtch = st.mtch ∧ st1.to = st.to ∧ st1.found = st.found := by
      subst hst1; split <;> simp
    have e2 : -1 ≤ st1.failOffset ∧ st1.failOffset ≤ (c'.tokens.length : Int) ∧
        (∀ q, st1.failing = some q → ∃ d, env.defs[q]? = some d) ∧ (0 ≤ st1.failOffset → Good st1.failOffset.toNat) := by
      subst hst1
      split
      · exact ⟨hc'.inv.failLo, hc'.inv.failHi, hc'.inv.failing, hg'.fail⟩
      · have := h.hi
        exact ⟨h.lo, by omega, h.failing, hf⟩
    simp only
    split
    · have hn : ChInv env input rend (Derives env.grammar input) H p d.id from_ c1 { st1 with c := { c' with offset := from_ } } := by
        refine ⟨hfr.trans (.offset _ _), hc'.inv.setOffset hol, rfl, e2.1, e2.2.1, e2.2.2.1, ?_⟩
        intro hm
        simp only [e1.1] at hm
        obtain ⟨a1, a2, a3, a4, a5⟩ := h.mtch hm
        have := hc'.frame.cons
        simp only [e1.2.1]
        exact ⟨a1, by omega, a3, hc'.frame.has _ _ _ a4, by omega⟩
      exact choicePass_good I hR hos hd hk hH opts _ (fun o h => ho o (by simp [h])) hn hg'.offset e2.2.2.2
    · rename_i hcond
      simp only [Bool.or_eq_true, Bool.not_eq_true', Bool.and_eq_true, decide_eq_true_eq, not_or,
        not_and, Bool.not_eq_false, e1.1, e1.2.1, Nat.not_le] at hcond
      obtain ⟨hm, hlen⟩ := hcond
      obtain ⟨b1, b2, b3⟩ := hc'.mtch hm
      rw [h.off] at b1 b2
      have b4 := hc'.inv.off
      have hDp : Derives env.grammar input p from_ c'.offset := I.choice hR hd hk (ho o (by simp)) b2
      have hHH : H from_ d.id c'.offset := I.store hR hd (by rw [hk]; rfl) hDp
      have hn : ChInv env input rend (Derives env.grammar input) H p d.id from_ c1 { st1 with mtch := true, found := true, to := c'.offset, c := { c' with offset := from_, res := c'.res.setMatch from_ d.id c'.offset } } := by
        refine ⟨(hfr.trans (.setMatch _ _ _ _)).trans (.offset _ _),
          (hc'.inv.setMatch b1 b4 hHH).setOffset hol, rfl, e2.1, e2.2.1, e2.2.2.1, ?_⟩
        intro _
        exact ⟨b1, b4, hDp, (Results.has_setMatch ..).2 (Or.inr ⟨rfl, rfl, rfl⟩), b3⟩
      exact choicePass_good I hR hos hd hk hH opts _ (fun o h => ho o (by simp [h])) hn
        (hg'.setMatch (hH _ (.done hDp))).offset e2.2.2.2

theorem choiceLoop_good (I : Interp env R input (Derives env.grammar input) H) {p : Ptr} {d : PDef} {os : List Ptr} (hR : R p)
    (hos : ∀ o ∈ os, R o) (hd : env.defs[p]? = some d) (hk : d.kind = .choice os) {from_ : Nat} {c1 : Ctx}
    (hH : Here env input Good p from_) : ∀ (n : Nat) (st : ChoiceSt),
      ChInv env input rend (Derives env.grammar input) H p d.id from_ c1 st → GoodC Good st.c → (0 ≤ st.failOffset → Good st.failOffset.toNat) →
      (choiceLoop (parse env m) d.id from_ os n st).Spec True True (fun st' =>
        ChInv env input rend (Derives env.grammar input) H p d.id from_ c1 st' ∧ GoodC Good st'.c ∧
          (0 ≤ st'.failOffset → Good st'.failOffset.toNat))
  | 0, _, _, _, _ => trivial
  | n + 1, st, h, hg, hf => by
    unfold choiceLoop
    have h0 : ChInv env input rend (Derives env.grammar input) H p d.id from_ c1 { st with found := false } :=
      ⟨h.frame, h.inv, h.off, h.lo, h.hi, h.failing, h.mtch⟩
    refine Res.Spec.bind (choicePass_good hrec I hR hos hd hk hH os _ (fun _ h => h) h0 hg hf) ?_
    rintro st' ⟨h1, h2, h3⟩
    split
    · exact choiceLoop_good I hR hos hd hk hH n st' h1 h2 h3
    · exact ⟨h1, h2, h3⟩

theorem choiceParse_good (C : Closed env R) (I : Interp env R input (Derives env.grammar input) H) {p : Ptr} {d : PDef} {os : List Ptr}
    (hR : R p) (hd : env.defs[p]? = some d) (hk : d.kind = .choice os) (hkw : d.commit.noKeyword = true → ∀ k ∈ env.keywords, TextParser env k)
    {n : Nat} {c : Ctx} (hi : Inv env input rend H c) (hH : Here env input Good p c.offset) (hg : GoodC Good c) :
    (choiceParse (parse env m) env.keywords n p d os c).Spec True True (GoodC Good) := by
  unfold choiceParse
  split
  · rename_i c' hc'
    exact fromResults_good hg hc'
  · split
    · exact hg.failed
    · simp only
      have hm : Inv env input rend H { c with res := c.res.markPending c.offset d.id } :=
        hi.setRes (fun off id to ht => hi.store off id to (by simpa using ht)) (hi.once.markPending _ _)
      have hst : ChInv env input rend (Derives env.grammar input) H p d.id c.offset
          { c with res := c.res.markPending c.offset d.id }
          { c := { c with res := c.res.markPending c.offset d.id }, mtch := false, found := false,
            to := c.offset, failOffset := c.failOffset, failing := none } :=
        ⟨.refl _, hm, rfl, hi.failLo, hi.failHi, by simp, by simp⟩
      refine Res.Spec.bind (choiceLoop_good hrec I hR (fun o ho => C.child hR hd (by rw [hk]; exact ho)) hd hk hH n _ hst
        hg.mark hg.fail) ?_
      rintro st ⟨hst, hgs, hfs⟩
      have hol : c.offset ≤ st.c.tokens.length := Nat.le_trans hi.off hst.frame.tokLen
      split
      · rename_i hmt
        obtain ⟨a1, a2, a3, a4, a5⟩ := hst.mtch hmt
        refine Res.Spec.bind (checked_good C I hkw a1 (fun o h1 h2 => hH o (Derives.inside a3 h1 h2)) hst.inv hol hgs) ?_
        rintro ⟨kw, c'⟩ hg'
        have ht := hH _ (.done a3)
        simp only at hg' ⊢
        split
        · exact unmark_good hg'.setFailing.failed
        · split
          · exact unmark_good ((hg'.setFail hfs).success ht)
          · split
            · exact unmark_good ((hg'.setFail (by omega)).success ht)
            · exact unmark_good ((hg'.setFail hg.fail).success ht)
      · unfold choiceNoMatch
        simp only
        split
        · exact unmark_good (hgs.setFail hfs).setFailing.setNoMatch.failed
        · exact unmark_good hgs.setNoMatch.failed

omit hrec in
/-- An occurrence of `item` that the loop of a sequence can come to, at `b`. -/
theorem Here.ahead {p : Ptr} {d : PDef} {is : List Ptr} {rs : List (Int × Int)} {ac : Bool} {i : Nat} (hd : env.defs[p]? = some d)
    (hk : d.kind = .seq is rs ac) (hH : Here env input Good p i) {item : Ptr} {b : Nat}
    (h : AheadItems (Derives env.grammar input) (is.zip rs) i item b) : Here env input Good item b := by
  obtain ⟨before, mn, mx, after, a, k, e, h1, h2, h3⟩ := h
  exact fun o ho => hH o (.seq (env.grammar_some hd) (by simp [hk, PKind.expr]) e (DerivesItems.of_items h1) (DerivesTimes.of_times h2) h3 ho)

theorem seqLoop_good {p : Ptr} {d : PDef} {ac : Bool} {c0 : Ctx} {all : List (Ptr × (Int × Int))} :
    ∀ (n : Nat) (its : List (Ptr × (Int × Int))) (k to : Nat) (c : Ctx),
      (∀ x ∈ its, R x.1) →
      Inv env input rend H c → c.offset = to → c0.offset ≤ to →
      (∀ x rest, its = x :: rest → x.2.2 > 0 → (k : Int) < x.2.2) →
      (∀ j, Rest (Derives env.grammar input) its k to j → Items (Derives env.grammar input) all c0.offset j) →
      (∀ item b, Ahead (Derives env.grammar input) its k to item b → Here env input Good item b) → GoodC Good c →
      (seqLoop (parse env m) p d ac c0.offset n its k to c).Spec True True (fun out => match out with
        | .complete t c' => c0.offset ≤ t ∧ t ≤ c'.tokens.length ∧ Items (Derives env.grammar input) all c0.offset t ∧
            Inv env input rend H c' ∧ GoodC Good c'
        | .returned c' => GoodC Good c')
  | 0, _, _, _, _, _, _, _, _, _, _, _, _ => trivial
  | n + 1, [], k, to, c, _, h, ho, hle, _, hr, _, hg => by
    have := h.off
    rw [ho] at this
    exact ⟨hle, this, hr to rfl, h, hg⟩
  | n + 1, (item, (mn, mx)) :: rest, k, to, c, hQ, h, ho, hle, hcnt, hr, ha, hg => by
    have hcnt : mx > 0 → (k : Int) < mx := hcnt _ _ rfl
    have hhere : Here env input Good item c.offset := by
      rw [ho]
      exact ha item to (Or.inl ⟨rfl, 0, .zero, fun hmx => by have := hcnt hmx; omega⟩)
    unfold seqLoop
    refine Res.Spec.bind (hrec item c (hQ (item, (mn, mx)) (by simp)) h hhere hg) ?_
    rintro c' ⟨hc', hg'⟩
    have hQ' : ∀ x ∈ rest, R x.1 := fun x hx => hQ x (by simp [hx])
    -- going on with the next item
    have next : ∀ to' n', Times (Derives env.grammar input item) n' to to' → InRange mn mx (k + n') → c'.offset = to' → to ≤ to' →
        (seqLoop (parse env m) p d ac c0.offset n rest 0 to' c').Spec True True (fun out => match out with
        | .complete t c' => c0.offset ≤ t ∧ t ≤ c'.tokens.length ∧ Items (Derives env.grammar input) all c0.offset t ∧
            Inv env input rend H c' ∧ GoodC Good c'
        | .returned c' => GoodC Good c') := by
      intro to' n' ht hin ho' hle'
      refine seqLoop_good n rest 0 to' c' hQ' hc'.inv ho' (by omega) (by intro x r _ h; omega) ?_ ?_ hg'
      · exact fun j hj => hr j ⟨n', to', ht, hin, Items.rest hj⟩
      · exact fun x b hb => ha x b (Or.inr ⟨n', to', ht, hin, hb.items⟩)
    split
    · rename_i hm
      simp only [Bool.not_eq_true'] at hm
      have ho' := hc'.fail hm
      rw [ho] at ho'
      split
      · rename_i hmn
        refine next to 0 .zero ?_ ho' (Nat.le_refl _)
        left
        exact ⟨by simpa using hmn, fun hmx => by have := hcnt hmx; simp; omega⟩
      · exact Res.Spec.bind (seqItemFailed_good hg') fun _ h => h
    · rename_i hm
      simp only [Bool.not_eq_true', Bool.not_eq_false] at hm
      obtain ⟨a1, a2, a3⟩ := hc'.mtch hm
      rw [ho] at a1 a2
      simp only
      by_cases hp : c'.offset > to
      · simp only [hp, decide_true, if_true, Bool.not_true, Bool.false_or]
        split
        · rename_i hc
          simp only [Bool.and_eq_true, decide_eq_true_eq, beq_iff_eq] at hc
          refine next _ 1 (.succ a2 .zero) ?_ rfl a1
          by_cases hinv : mn ≤ mx
          · left; exact ⟨by have := hc.2; omega, fun _ => by have := hc.2; omega⟩
          · right; exact ⟨hc.1, by omega, by simpa using hc.2⟩
        · rename_i hc
          simp only [Bool.and_eq_true, decide_eq_true_eq, beq_iff_eq, not_and] at hc
          refine seqLoop_good n _ (k + 1) _ c' hQ hc'.inv rfl (by omega) ?_ ?_ ?_ hg'
          · intro x r hx hmx
            cases hx
            have := hcnt hmx
            have := hc hmx
            simp only at *
            omega
          · rintro j ⟨n', q, b1, b2, b3⟩
            exact hr j ⟨n' + 1, q, .succ a2 b1, by rw [show k + (n' + 1) = k + 1 + n' by omega]; exact b2, b3⟩
          · rintro x b (⟨rfl, n', b1, b2⟩ | ⟨n', q, b1, b2, b3⟩)
            · exact ha x b (Or.inl ⟨rfl, n' + 1, .succ a2 b1, fun h => by have := b2 h; omega⟩)
            · exact ha x b (Or.inr ⟨n' + 1, q, .succ a2 b1, by rw [show k + (n' + 1) = k + 1 + n' by omega]; exact b2, b3⟩)
      · have he : c'.offset = to := by omega
        simp only [hp, decide_false, Bool.not_false, Bool.true_or, if_true]
        rw [he] at a2 ⊢
        by_cases hinv : mx > 0 ∧ mx < mn
        · refine next to (mx - k).toNat (Times.empties a2 _) ?_ he (Nat.le_refl _)
          right
          have := hcnt hinv.1
          exact ⟨hinv.1, hinv.2, by omega⟩
        · refine next to (mn - k).toNat (Times.empties a2 _) ?_ he (Nat.le_refl _)
          left
          refine ⟨by omega, fun hmx => ?_⟩
          have := hcnt hmx
          omega

theorem seqParse_good (C : Closed env R) (I : Interp env R input (Derives env.grammar input) H) {p : Ptr} {d : PDef} {is : List Ptr}
    {rs : List (Int × Int)} {ac : Bool} (hR : R p) (hd : env.defs[p]? = some d) (hk : d.kind = .seq is rs ac)
    (hkw : d.commit.noKeyword = true → ∀ k ∈ env.keywords, TextParser env k)
    {n : Nat} {c : Ctx} (hi : Inv env input rend H c) (hH : Here env input Good p c.offset) (hg : GoodC Good c) :
    (seqParse (parse env m) env.keywords n p d is rs ac c).Spec True True (GoodC Good) := by
  unfold seqParse
  split
  · exact hg.failed
  · have hmk : (if ac then c else { c with res := c.res.markPending c.offset d.id }) =
        seqMark ac d.id c := rfl
    simp only
    rw [hmk]
    have hm : Inv env input rend H (seqMark ac d.id c) := by
      unfold seqMark
      split
      · exact hi
      · exact hi.setRes (fun off id to ht => hi.store off id to (by simpa using ht)) (hi.once.markPending _ _)
    have hmo : (seqMark ac d.id c).offset = c.offset := by unfold seqMark; split <;> rfl
    refine Res.Spec.bind (seqLoop_good hrec (all := is.zip rs) n (is.zip rs) 0 c.offset _ ?_ hm hmo (Nat.le_refl _)
      (by intro x r _ h; omega) (fun j hj => Items.rest hj) (fun x b hb => Here.ahead hd hk hH hb.items) hg.seqMark) ?_
    · intro x hx
      exact C.child hR hd (by rw [hk]; exact (List.of_mem_zip hx).1)
    · intro out hout
      cases out with
      | returned c' => exact hout
      | complete to c' =>
        obtain ⟨hle, hto, hitems, hi', hg'⟩ := hout
        have hD : Derives env.grammar input p c.offset to := .seq (env.grammar_some hd) (by simp [hk, PKind.expr]) (DerivesItems.of_items hitems)
        have ht := hH _ (.done hD)
        simp only
        refine Res.Spec.bind (checked_good C I hkw hle (fun o h1 h2 => hH o (Derives.inside hD h1 h2)) hi' (by omega) hg') ?_
        rintro ⟨kw, c2⟩ hg2
        simp only at hg2 ⊢
        split
        · exact unmarkUnless_good hg2.setFailing.failed
        · have g4 : GoodC Good { c2 with res := setGeneralizations c.offset to d.gens c2.res } :=
            hg2.setRes (setGeneralizations_good ht _ hg2.has)
          split
          · exact unmarkUnless_good (((g4.setFail (by omega)).setMatch ht).success ht)
          · exact unmarkUnless_good ((g4.setMatch ht).success ht)

end

/-- The positions that are remembered while parsing are beginnings. -/
theorem parse_good (C : Closed env R) (I : Interp env R input (Derives env.grammar input) H)
    (hkw : ∀ p d, R p → env.defs[p]? = some d → d.commit.noKeyword = true → ∀ k ∈ env.keywords, TextParser env k) :
    ∀ (n : Nat) (p : Ptr) (c : Ctx), R p → Inv env input rend H c → Here env input Good p c.offset → GoodC Good c →
      (parse env n p c).Spec True True (GoodC Good)
  | 0, _, _, _, _, _, _ => trivial
  | n + 1, p, c, hR, hi, hH, hg => by
    have hrec : ∀ q c, R q → Inv env input rend H c → Here env input Good q c.offset → GoodC Good c →
        (parse env n q c).Spec True True fun c' => Post env input rend (Derives env.grammar input) H q c c' ∧ GoodC Good c' :=
      fun q c hq hi hh hg => ((parse_spec C I (env.bounds _) n q c hq hi).and (parse_good C I hkw n q c hq hi hh hg)).mono
        (fun _ => trivial) (fun _ => trivial) fun _ h => h
    obtain ⟨d, hd⟩ := C.def_ hR
    unfold parse
    simp only [hd]
    cases hk : d.kind with
    | char neg cs rs =>
      refine (charParse_good hi hg (hH _ .here) ?_).imp fun _ h => h.1
      intro t ht hm _
      exact hH _ (.done (I.char hR hd hk ht hm))
    | choice os => exact choiceParse_good hrec C I hR hd hk (hkw p d hR hd) hi hH hg
    | seq is rs ac => exact seqParse_good hrec C I hR hd hk (hkw p d hR hd) hi hH hg

/-- The position of an error of `parseInput`. -/
theorem parseInput_begins {root : Ptr} (L : Linked env root)
    (hkw : ∀ p d, Reach env root p → env.defs[p]? = some d → d.commit.noKeyword = true → ∀ k ∈ env.keywords, TextParser env k)
    {n o l k : Nat} {nm : Name} (h : parseInput env n root input rend = .ok (.error (.parseError o l k nm))) :
    Begins env.grammar input root 0 o := by
  have hg0 : GoodC (Begins env.grammar input root 0) (newContext input rend) := by
    refine ⟨.here, by simp [newContext], ?_⟩
    intro off id to hh
    exact absurd hh (by simp [newContext, Results.Has, Results.at_])
  unfold parseInput at h
  obtain ⟨c, hc, h⟩ := Res.bind_eq_ok h
  have hg := (parse_good L.closed (L.interp input) hkw n root (newContext input rend) .root .init (fun o h => h) hg0).of_eq hc
  have err : ∀ {p : Ptr} {c : Ctx} {e : Err}, GoodC (Begins env.grammar input root 0) c →
      parseError env c p = .ok e → e = .parseError o l k nm → Begins env.grammar input root 0 o := by
    intro p c e hg he heq
    subst heq
    unfold parseError at he
    obtain ⟨nn, -, he⟩ := Res.bind_eq_ok he
    obtain ⟨lc, hl, he⟩ := Res.bind_eq_ok he
    cases he
    by_cases hfn : (c.failing == none) = true
    · rw [if_pos hfn]
      simpa using hg.consumed
    · rw [if_neg hfn] at hl ⊢
      refine hg.fail ?_
      unfold findLine at hl
      split at hl
      · cases hl
      · omega
  cases hre : c.readErr with
  | some e =>
    have hi := ((parse_spec L.closed (L.interp input) (env.bounds _) n root (newContext input rend) .root .init).of_eq hc).inv
    simp only [hre] at h
    cases h
    rcases hi.rerr _ hre with ⟨h1, -⟩ | ⟨_, h1, -⟩ <;> cases h1
  | none =>
    simp only [hre] at h
    obtain ⟨⟨e, c'⟩, hf, h⟩ := Res.bind_eq_ok h
    have he : e = some (.parseError o l k nm) := by
      cases e with
      | some e =>
        simp only at h
        cases h
        rfl
      | none =>
        obtain ⟨x, -, h⟩ := Res.bind_eq_ok h
        split at h <;> cases h
    subst he
    have hgr : GoodC (Begins env.grammar input root 0) c.read.2 := by
      have : c.read.2.consumed = c.consumed ∧ c.read.2.failOffset = c.failOffset ∧ c.read.2.res = c.res := by
        unfold Ctx.read
        repeat' split
        all_goals exact ⟨rfl, rfl, rfl⟩
      exact ⟨by rw [this.1]; exact hg.consumed, by rw [this.2.1]; exact hg.fail, by rw [this.2.2]; exact hg.has⟩
    have left : ∀ {p : Ptr} {c c' : Ctx}, GoodC (Begins env.grammar input root 0) c →
        ((parseError env c p).bind fun e => Res.ok (some e, c)) = .ok (some (.parseError o l k nm), c') → Begins env.grammar input root 0 o := by
      intro p c c' hg hf
      obtain ⟨e, h1, h2⟩ := Res.bind_eq_ok hf
      cases h2
      exact err hg h1 rfl
    have fin : ∀ b : Bool, (if b = true then (parseError env c (c.failing.getD root)).bind fun e => Res.ok (some e, c)
        else if c.read.2.eof = true then Res.ok (none, c.read.2)
        else match c.read.2.readErr with
          | some e => Res.ok (some e, c.read.2)
          | none => (parseError env c.read.2 root).bind fun e => Res.ok (some e, c.read.2)) = .ok (some (.parseError o l k nm), c') →
        Begins env.grammar input root 0 o := by
      intro b hf
      split at hf
      · exact left hg hf
      · split at hf
        · cases hf
        · split at hf
          · rename_i hre'
            cases hf
            have hi := ((parse_spec L.closed (L.interp input) (env.bounds _) n root (newContext input rend) .root .init).of_eq hc).inv
            rcases (hi.read hre).2.2.2.2 _ hre' with ⟨h1, -⟩ | ⟨_, h1, -⟩ <;> cases h1
          · exact left hgr hf
    unfold finalizeParse at hf
    split at hf
    · cases hf
    · exact fin _ hf

end
end Treerack
