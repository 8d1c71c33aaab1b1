import Verif.Proofs.DocLang
import Verif.Proofs.Language
import Verif.Spec.SpacedDocument

/-
The grammar of the definition calls of a document, with its whitespace definitions, derives what the document means.
-/

namespace Treerack
open Spec

theorem inRange_one {k : Nat} (h : InRange 1 1 k) : k = 1 := by
  unfold InRange at h
  omega

/-- One occurrence. -/
theorem wtight_once {W : WGrammar Name} {input : List Rune} {m : Name} {i j : Nat} :
    WTight W input [once m] i j ↔ WDerives W input m i j := by
  constructor
  · intro h
    unfold once at h
    cases h with
    | cons h1 h2 h3 =>
      cases h3
      obtain rfl := inRange_one h2
      cases h1 with
      | succ h4 h5 => cases h4; exact h5
  · intro h
    exact .cons (k := 1) (.succ .zero h) (Or.inl ⟨by simp, by simp⟩) .nil

theorem wloose_once {W : WGrammar Name} {input : List Rune} {m : Name} {i j : Nat} :
    WLoose W input true [once m] i j ↔ WDerives W input m i j := by
  constructor
  · intro h
    unfold once at h
    cases h with
    | cons h1 h2 h3 =>
      cases h3
      obtain rfl := inRange_one h2
      cases h1 with
      | first h4 => exact h4
      | succ h4 h5 => exact absurd (h5 rfl) (by omega)
  · intro h
    exact .cons (k := 1) (.first h) (Or.inl ⟨by simp, by simp⟩) .nil

theorem wbody_once {W : WGrammar Name} {input : List Rune} {n m : Name} {gd : GDef Name} (hG : W.G n = some gd)
    (he : gd.expr = .seq [once m]) {i j : Nat} : WBody W input n i j ↔ WDerives W input m i j := by
  constructor
  · intro hb
    cases hb with
    | char h1 h2 => rw [hG] at h1; cases h1; rw [he] at h2; cases h2
    | choice h1 h2 => rw [hG] at h1; cases h1; rw [he] at h2; cases h2
    | tight h1 h2 h3 h4 => rw [hG] at h1; cases h1; rw [he] at h2; cases h2; exact wtight_once.1 h4
    | loose h1 h2 h3 h4 => rw [hG] at h1; cases h1; rw [he] at h2; cases h2; exact wloose_once.1 h4
  · intro h
    cases ht : W.tight n with
    | true => exact .tight hG he ht (wtight_once.2 h)
    | false => exact .loose hG he ht (wloose_once.2 h)

theorem wloose_absent {W : WGrammar Name} {input : List Rune} {n : Name} {b : Int × Int} {items : List (Name × Int × Int)} {i m j : Nat}
    (h1 : b.1 ≤ 0) (h2 : b.2 = 1) (g : Gap W input i m) (h : WLoose W input false items m j) :
    WLoose W input false ((n, b) :: items) i j := by
  obtain ⟨mn, mx⟩ := b
  simp only at h1 h2
  subst h2
  exact .absent h1 g h

theorem wbody_char {W : WGrammar Name} {input : List Rune} {n nm : Name} {al neg : Bool} {cs : List Rune} {rs : List (Rune × Rune)}
    (hG : W.G n = some { name := nm, alias := al, expr := .char neg cs rs }) {i j : Nat} :
    WBody W input n i j ↔ ∃ t, input[i]? = some t ∧ InClass neg cs rs t ∧ j = i + 1 := by
  constructor
  · intro hb
    cases hb with
    | char h1 h2 h3 h4 => rw [hG] at h1; cases h1; cases h2; exact ⟨_, h3, h4, rfl⟩
    | choice h1 h2 => rw [hG] at h1; cases h1; cases h2
    | tight h1 h2 => rw [hG] at h1; cases h1; cases h2
    | loose h1 h2 => rw [hG] at h1; cases h1; cases h2
  · rintro ⟨t, h1, h2, rfl⟩
    exact .char hG rfl h1 h2

theorem itemRange_absent {q : Option Quantifier} (hq : ∀ x, q = some x → x.Sound) :
    ((bounds (Spec.itemRange q).1 (Spec.itemRange q).2).1 ≤ 0 ∧ (bounds (Spec.itemRange q).1 (Spec.itemRange q).2).2 = 1) ↔
      (allowed q 0 ∧ allowed q 1 ∧ ¬ allowed q 2) := by
  rw [← itemRange_allowed hq, ← itemRange_allowed hq, ← itemRange_allowed hq]
  generalize bounds (Spec.itemRange q).1 (Spec.itemRange q).2 = b
  unfold InRange
  omega

/-! ### The calls of a document -/

structure WsBody (W : WGrammar Name) (doc : Document) (n : Name) (ct : Commit) (e : DExpr) : Prop extends Body W.G doc n ct e where
  flagged : ∀ c ∈ e.calls n ct, W.tight c.name = c.isTight

structure WsItems (W : WGrammar Name) (doc : Document) (n : Name) (ct : Commit) (i : Nat) (e : DItems) : Prop
    extends ItemsBody W.G doc n ct i e where
  flagged : ∀ c ∈ e.calls n ct i, W.tight c.name = c.isTight

structure WsOptions (W : WGrammar Name) (doc : Document) (n : Name) (ct : Commit) (i : Nat) (e : DOptions) : Prop
    extends OptionsBody W.G doc n ct i e where
  flagged : ∀ c ∈ e.calls n ct i, W.tight c.name = c.isTight

/-- The name refers to a definition with the expression; the flag tells that it is without whitespace. -/
inductive WsRef (W : WGrammar Name) (doc : Document) : Bool → Name → DExpr → Prop
  | symbol {inner : Bool} {m : Name} : Resolved W.G doc m → WsRef W doc inner m (.symbol m)
  | body {n : Name} {ct : Commit} {e : DExpr} : n ≠ W.root → ct.whitespace = false → ct.alias = true → WsBody W doc n ct e →
      WsRef W doc ct.noWhitespace n e

section

variable {W : WGrammar Name} {doc : Document} {input : List Rune}

theorem charName_root (hroot : NoColon W.root) (n : Name) (i : Nat) : charName n i ≠ W.root := by
  intro h
  apply hroot
  rw [← h]
  exact colon_charName n i

theorem WsItems.cons (hroot : NoColon W.root) {n : Name} {ct : Commit} {i : Nat} {e : DExpr} {q : Option Quantifier}
    {rest : DItems} (h : WsItems W doc n ct i (.cons e q rest)) :
    WsRef W doc ct.noWhitespace (memberName n i e) e ∧ (∀ x, q = some x → x.Sound) ∧ WsItems W doc n ct (i + 1) rest := by
  obtain ⟨hb, hf⟩ := h
  obtain ⟨k1, k2, k3⟩ := hb.cons
  refine ⟨?_, k2, k3, ?_⟩
  · obtain ⟨h1, h2, h3⟩ := hb
    simp only [DItems.symbols, List.mem_append] at h2
    simp only [DItems.Sound] at h3
    have hs : ∀ m ∈ e.symbols, Resolved W.G doc m := fun m hm => h2 m (Or.inl hm)
    cases e <;> first
      | exact .symbol (m := ‹Name›) (hs ‹Name› (List.mem_singleton.2 rfl))
      | (simp only [DItems.calls] at h1 hf
         exact .body (ct := memberFlags ct) (charName_root hroot _ _) rfl rfl
           ⟨⟨h1.left, hs, h3.1⟩, fun c hc => hf c (List.mem_append_left _ hc)⟩)
  · cases e <;> simp only [DItems.calls] at hf <;> first | exact fun c hc => hf c (List.mem_append_right _ hc) | exact hf

theorem WsOptions.cons (hroot : NoColon W.root) {n : Name} {ct : Commit} {i : Nat} {e : DExpr}
    {rest : DOptions} (h : WsOptions W doc n ct i (.cons e rest)) :
    WsRef W doc ct.noWhitespace (memberName n i e) e ∧ WsOptions W doc n ct (i + 1) rest := by
  obtain ⟨hb, hf⟩ := h
  obtain ⟨k1, k3⟩ := hb.cons
  refine ⟨?_, k3, ?_⟩
  · obtain ⟨h1, h2, h3⟩ := hb
    simp only [DOptions.symbols, List.mem_append] at h2
    simp only [DOptions.Sound] at h3
    have hs : ∀ m ∈ e.symbols, Resolved W.G doc m := fun m hm => h2 m (Or.inl hm)
    cases e <;> first
      | exact .symbol (m := ‹Name›) (hs ‹Name› (List.mem_singleton.2 rfl))
      | (simp only [DOptions.calls] at h1 hf
         exact .body (ct := memberFlags ct) (charName_root hroot _ _) rfl rfl
           ⟨⟨h1.left, hs, h3.1⟩, fun c hc => hf c (List.mem_append_left _ hc)⟩)
  · cases e <;> simp only [DOptions.calls] at hf <;> first | exact fun c hc => hf c (List.mem_append_right _ hc) | exact hf

theorem WsBody.items {n : Name} {ct : Commit} {items : DItems} (h : WsBody W doc n ct (.seq items)) :
    WsItems W doc n ct 0 items ∧ W.tight n = (ct.noWhitespace || ct.whitespace) := by
  obtain ⟨hb, hf⟩ := h
  simp only [DExpr.calls] at hf
  refine ⟨⟨hb.seq.1, fun c hc => hf c (List.mem_append_left _ hc)⟩, ?_⟩
  have := hf _ (List.mem_append_right _ (List.mem_singleton.2 rfl))
  simpa [Call.isTight, Call.name, Call.commit] using this

theorem WsBody.options {n : Name} {ct : Commit} {os : DOptions} (h : WsBody W doc n ct (.choice os)) :
    WsOptions W doc n ct 0 os := by
  obtain ⟨hb, hf⟩ := h
  simp only [DExpr.calls] at hf
  exact ⟨hb.choice.1, fun c hc => hf c (List.mem_append_left _ hc)⟩

theorem WsBody.charsTight {n : Name} {ct : Commit} {cs : List Rune} (h : WsBody W doc n ct (.chars cs)) : W.tight n = true := by
  obtain ⟨hb, hf⟩ := h
  simp only [DExpr.calls] at hf
  have := hf _ (List.mem_singleton.2 rfl)
  simpa [Call.isTight, Call.name, Call.commit] using this

theorem WsBody.chars_iff (hroot : NoColon W.root) {n : Name} {ct : Commit} {cs : List Rune} (h : WsBody W doc n ct (.chars cs)) (i j : Nat) :
    WBody W input n i j ↔ j = i + cs.length ∧ (input.drop i).take cs.length = cs := by
  obtain ⟨h1, gd, h2, h3⟩ := h.toBody.chars
  have ht := h.charsTight
  obtain ⟨nm, al, ex⟩ := gd
  simp only at h3
  subst h3
  rw [wbody_tight h2 ht, wtight_chars]
  · simp only [List.length_map, List.length_zipIdx, List.map_map]
    rw [show (Prod.snd ∘ fun x : Rune × Nat => (charName n x.2, x.1)) = Prod.fst from rfl, List.zipIdx_map_fst]
  · intro x hx
    obtain ⟨y, hy, rfl⟩ := List.mem_map.1 hx
    exact ⟨charName_root hroot _ _, h1 y hy⟩

/-- The grammar is the one of the document. -/
structure WsDoc (W : WGrammar Name) (doc : Document) : Prop where
  body : ∀ d ∈ doc, WsBody W doc d.name { d.flags with userDefined := true } d.expr
  rootName : ∀ d ∈ doc, IsRoot doc d ↔ d.name = W.root
  ws : ∀ w, w ∈ W.ws ↔ ∃ d ∈ doc, d.flags.whitespace = true ∧ d.name = w
  noColon : NoColon W.root

theorem defWs_mem {d : DDef} {i j : Nat} (h : DefWs doc input d i j) : d ∈ doc := by
  cases h with
  | def_ h => exact h
  | root h => exact h

/-- The grammar derives a text of an expression: the body of a definition with the expression, and the symbol. -/
def Taken (W : WGrammar Name) (doc : Document) (input : List Rune) (tight inner : Bool) (e : DExpr) (i j : Nat) : Prop :=
  (∀ (n : Name) (ct : Commit), WsBody W doc n ct e → tight = (ct.noWhitespace || ct.whitespace) → inner = ct.noWhitespace →
    WBody W input n i j) ∧ ∀ m, e = .symbol m → WDerives W input m i j

theorem Taken.ref {inner : Bool} {e : DExpr} {i j : Nat} (h : Taken W doc input inner inner e i j) {n : Name}
    (hr : WsRef W doc inner n e) : WDerives W input n i j := by
  cases hr with
  | symbol _ => exact h.2 _ rfl
  | body h1 h2 _ h3 => exact .def_ h1 (h.1 _ _ h3 (by rw [h2]; simp) rfl)

variable (H : WsDoc W doc)
include H

mutual

theorem DefWs.derives : ∀ {d : DDef} {i j : Nat}, DefWs doc input d i j → WDerives W input d.name i j
  | _, _, _, .def_ hd hr hm =>
    .def_ (fun h => hr ((H.rootName _ hd).2 h)) ((MeansWs.derives hm).1 _ _ (H.body _ hd) rfl rfl)
  | _, _, _, .root hd hr g1 hm g2 => by
    have hn := (H.rootName _ hd).1 hr
    have := (MeansWs.derives hm).1 _ _ (H.body _ hd) rfl rfl
    rw [hn] at this ⊢
    exact .root (GapWs.derives g1) this (GapWs.derives g2)

theorem MeansWs.derives : ∀ {tight inner : Bool} {e : DExpr} {i j : Nat}, MeansWs doc input tight inner e i j →
    Taken W doc input tight inner e i j
  | _, _, _, _, _, .any ht => by
    refine ⟨fun n ct hb _ _ => ?_, fun m hm => by cases hm⟩
    obtain ⟨⟨al, h1⟩, gd, h2, h3⟩ := hb.toBody.any
    exact (wbody_once h2 h3).2 (.def_ (charName_root H.noColon _ _) ((wbody_char h1).2 ⟨_, ht, by simp [InClass], rfl⟩))
  | _, _, _, _, _, .class_ ht hc => by
    refine ⟨fun n ct hb _ _ => ?_, fun m hm => by cases hm⟩
    obtain ⟨⟨al, h1⟩, gd, h2, h3⟩ := hb.toBody.class_
    exact (wbody_once h2 h3).2 (.def_ (charName_root H.noColon _ _) ((wbody_char h1).2 ⟨_, ht, hc, rfl⟩))
  | _, _, _, _, _, .chars ht =>
    ⟨fun n ct hb _ _ => (hb.chars_iff H.noColon _ _).2 ⟨rfl, ht⟩, fun m hm => by cases hm⟩
  | _, _, _, _, _, .symbol hd => by
    have hd' := DefWs.derives hd
    refine ⟨fun n ct hb _ _ => ?_, fun m hm => by cases hm; exact hd'⟩
    obtain ⟨gd, h2, h3⟩ := hb.toBody.symbol
    exact (wbody_once h2 h3).2 hd'
  | _, _, _, _, _, .tight hm => by
    refine ⟨fun n ct hb ht hi => ?_, fun m hm => by cases hm⟩
    obtain ⟨h1, gd, h2, h3⟩ := hb.toBody.seq
    obtain ⟨k1, k2⟩ := hb.items
    exact .tight h2 h3 (by rw [k2, ← ht]) (TightWs.derives hm k1 hi)
  | _, _, _, _, _, .loose hm => by
    refine ⟨fun n ct hb ht hi => ?_, fun m hm => by cases hm⟩
    obtain ⟨h1, gd, h2, h3⟩ := hb.toBody.seq
    obtain ⟨k1, k2⟩ := hb.items
    exact .loose h2 h3 (by rw [k2, ← ht]) (LooseWs.derives hm k1 hi)
  | _, _, _, _, _, .choice hm => by
    refine ⟨fun n ct hb ht hi => ?_, fun m hm => by cases hm⟩
    obtain ⟨h1, gd, h2, h3⟩ := hb.toBody.choice
    obtain ⟨o, k1, k2⟩ := OptionsWs.derives hm hb.options hi
    exact .choice h2 h3 k1 k2

theorem GapWs.derives : ∀ {i j : Nat}, GapWs doc input i j → Gap W input i j
  | _, _, .nil => .nil
  | _, _, .cons g hw hd => by
    exact .cons (GapWs.derives g) ((H.ws _).2 ⟨_, defWs_mem hd, hw, rfl⟩) (DefWs.derives hd)

theorem TightWs.derives : ∀ {inner : Bool} {items : DItems} {i j : Nat}, TightWs doc input inner items i j →
    ∀ {n : Name} {ct : Commit} {x : Nat}, WsItems W doc n ct x items → inner = ct.noWhitespace →
    WTight W input ((items.refs n x).map SeqItem.bounded) i j
  | _, _, _, _, .nil, _, _, _, _, _ => .nil
  | _, _, _, _, .cons h1 h2 h3, _, _, _, hb, hi => by
    obtain ⟨k1, k2, k3⟩ := hb.cons H.noColon
    exact .cons (TimesWs.derives h1 (hi ▸ k1)) ((itemRange_allowed k2 _).2 h2) (TightWs.derives h3 k3 hi)

theorem TimesWs.derives : ∀ {inner : Bool} {e : DExpr} {k i j : Nat}, TimesWs doc input inner e k i j → ∀ {n : Name},
    WsRef W doc inner n e → WTimes W input n k i j
  | _, _, _, _, _, .zero, _, _ => .zero
  | _, _, _, _, _, .succ h1 h2, _, hr => .succ (TimesWs.derives h1 hr) ((MeansWs.derives h2).ref hr)

theorem LooseWs.derives : ∀ {inner first : Bool} {items : DItems} {i j : Nat}, LooseWs doc input inner first items i j →
    ∀ {n : Name} {ct : Commit} {x : Nat}, WsItems W doc n ct x items → inner = ct.noWhitespace →
    WLoose W input first ((items.refs n x).map SeqItem.bounded) i j
  | _, _, _, _, _, .nil, _, _, _, _, _ => .nil
  | _, _, _, _, _, .cons h1 h2 h3, _, _, _, hb, hi => by
    obtain ⟨k1, k2, k3⟩ := hb.cons H.noColon
    exact .cons (OccWs.derives h1 (hi ▸ k1)) ((itemRange_allowed k2 _).2 h2) (LooseWs.derives h3 k3 hi)
  | _, _, _, _, _, .absent h1 h2 h3 g h4, _, _, _, hb, hi => by
    obtain ⟨k1, k2, k3⟩ := hb.cons H.noColon
    obtain ⟨r1, r2⟩ := (itemRange_absent k2).2 ⟨h1, h2, h3⟩
    exact wloose_absent r1 r2 (GapWs.derives g) (LooseWs.derives h4 k3 hi)

theorem OccWs.derives : ∀ {inner first : Bool} {e : DExpr} {k i j : Nat}, OccWs doc input inner first e k i j → ∀ {n : Name},
    WsRef W doc inner n e → WOcc W input first n k i j
  | _, _, _, _, _, _, .zero, _, _ => .zero
  | _, _, _, _, _, _, .first h, _, hr => .first ((MeansWs.derives h).ref hr)
  | _, _, _, _, _, _, .succ h1 h2 g h3, _, hr => .succ (OccWs.derives h1 hr) h2 (GapWs.derives g) ((MeansWs.derives h3).ref hr)

theorem OptionsWs.derives : ∀ {inner : Bool} {os : DOptions} {i j : Nat}, OptionsWs doc input inner os i j →
    ∀ {n : Name} {ct : Commit} {x : Nat}, WsOptions W doc n ct x os → inner = ct.noWhitespace →
    ∃ o ∈ os.refs n x, WDerives W input o i j
  | _, _, _, _, .here h, _, _, _, hb, hi => ⟨_, List.mem_cons_self .., (MeansWs.derives h).ref (hi ▸ (hb.cons H.noColon).1)⟩
  | _, _, _, _, .there h, _, _, _, hb, hi => by
    obtain ⟨o, h1, h2⟩ := OptionsWs.derives h (hb.cons H.noColon).2 hi
    exact ⟨o, List.mem_cons_of_mem _ h1, h2⟩

end

/-! ### The other direction -/

/-- What a derivation of a name means. -/
def Says (W : WGrammar Name) (doc : Document) (input : List Rune) (n : Name) (i j : Nat) : Prop :=
  (∀ d ∈ doc, d.name = n → DefWs doc input d i j) ∧
  (n ≠ W.root → ∀ (e : DExpr) (ct : Commit), WsBody W doc n ct e →
    MeansWs doc input (ct.noWhitespace || ct.whitespace) ct.noWhitespace e i j) ∧ ∃ gd, W.G n = some gd

omit H in
theorem ref_ws {n : Name} {i j : Nat} (h : Says W doc input n i j) {inner : Bool} {e : DExpr} (hr : WsRef W doc inner n e) :
    MeansWs doc input inner inner e i j := by
  cases hr with
  | symbol hr =>
    obtain ⟨h1, -, gd, h2⟩ := h
    obtain ⟨d, hd, rfl⟩ := hr gd h2
    exact .symbol (h1 d hd rfl)
  | body h1 h2 _ h3 =>
    have := h.2.1 h1 e _ h3
    rw [h2, Bool.or_false] at this
    exact this

theorem options_ws {o : Name} {i j : Nat} (h : Says W doc input o i j) : ∀ {os : DOptions} {n : Name} {ct : Commit} {x : Nat},
    WsOptions W doc n ct x os → o ∈ os.refs n x → OptionsWs doc input ct.noWhitespace os i j
  | .nil, _, _, _, _, hm => by cases hm
  | .cons e rest, n, ct, x, hb, hm => by
    obtain ⟨k1, k2⟩ := hb.cons H.noColon
    rcases List.mem_cons.1 hm with rfl | hm
    · exact .here (ref_ws h k1)
    · exact .there (options_ws h k2 hm)

/-- The sequences. -/
theorem seq_ws {n : Name} {i j : Nat} {gd : GDef Name} {l : List (Name × Int × Int)} {e : DExpr} {ct : Commit}
    (hw : WBody W input n i j) (hG : W.G n = some gd) (he : gd.expr = .seq l) (hb : WsBody W doc n ct e)
    (hs : ∀ (n' : Name) (ct' : Commit) (x : Nat) (items : DItems), WsItems W doc n' ct' x items →
      l = (items.refs n' x).map SeqItem.bounded →
      (W.tight n = true ∧ TightWs doc input ct'.noWhitespace items i j) ∨
      (W.tight n = false ∧ LooseWs doc input ct'.noWhitespace true items i j)) :
    MeansWs doc input (ct.noWhitespace || ct.whitespace) ct.noWhitespace e i j := by
  cases e with
  | any =>
    obtain ⟨⟨al, h1⟩, gd', k1, k2⟩ := hb.toBody.any
    have := (wbody_once k1 k2).1 hw
    rw [wderives_nonroot (charName_root H.noColon _ _), wbody_char h1] at this
    obtain ⟨t, h3, -, rfl⟩ := this
    exact .any h3
  | class_ =>
    obtain ⟨⟨al, h1⟩, gd', k1, k2⟩ := hb.toBody.class_
    have := (wbody_once k1 k2).1 hw
    rw [wderives_nonroot (charName_root H.noColon _ _), wbody_char h1] at this
    obtain ⟨t, h3, h4, rfl⟩ := this
    exact .class_ h3 h4
  | chars =>
    obtain ⟨rfl, h3⟩ := (hb.chars_iff H.noColon _ _).1 hw
    exact .chars h3
  | symbol m =>
    obtain ⟨gd', k1, k2⟩ := hb.toBody.symbol
    rw [hG] at k1; cases k1; rw [he] at k2; cases k2
    have hi : WsItems W doc n ct 0 (.cons (.symbol m) none .nil) :=
      ⟨⟨by intro c hc; simp [DItems.calls] at hc, fun x hx => hb.toBody.symbols x (by simpa [DItems.symbols, DExpr.symbols] using hx),
        by simp [DItems.Sound, DExpr.Sound]⟩, by intro c hc; simp [DItems.calls] at hc⟩
    have hx : ∃ t, MeansWs doc input t t (.symbol m) i j := by
      rcases hs n ct 0 _ hi (by simp [DItems.refs, memberName, SeqItem.bounded, Spec.itemRange, bounds, once]) with ⟨-, h⟩ | ⟨-, h⟩
      · cases h with
        | cons h1 h2 h3 =>
          cases h3
          simp only [allowed] at h2
          subst h2
          cases h1 with
          | succ h4 h5 => cases h4; exact ⟨_, h5⟩
      · cases h with
        | cons h1 h2 h3 =>
          cases h3
          simp only [allowed] at h2
          subst h2
          cases h1 with
          | first h5 => exact ⟨_, h5⟩
          | succ h4 h5 => exact absurd (h5 rfl) (by omega)
    obtain ⟨t, hx⟩ := hx
    generalize hm : DExpr.symbol m = em at hx
    cases hx <;> first | (cases hm; exact .symbol ‹_›) | cases hm
  | seq items =>
    obtain ⟨-, gd', k1, k2⟩ := hb.toBody.seq
    rw [hG] at k1; cases k1; rw [he] at k2; cases k2
    obtain ⟨i1, i2⟩ := hb.items
    rcases hs n ct 0 items i1 rfl with ⟨h1, h2⟩ | ⟨h1, h2⟩
    · rw [← i2, h1]; exact .tight h2
    · rw [← i2, h1]; exact .loose h2
  | choice => obtain ⟨-, gd', k1, k2⟩ := hb.toBody.choice; rw [hG] at k1; cases k1; rw [he] at k2; cases k2

mutual

theorem WDerives.meansWs : ∀ {n : Name} {i j : Nat}, WDerives W input n i j →
    Says W doc input n i j
  | _, _, _, .def_ hn hb => by
    have ih := WBody.meansWs hb
    refine ⟨fun d hd he => ?_, fun _ e ct hx => ih e ct hx, ?_⟩
    · subst he
      have := ih _ _ (H.body d hd)
      exact .def_ hd (fun h => hn ((H.rootName d hd).1 h)) this
    · cases hb with
      | char h => exact ⟨_, h⟩
      | choice h => exact ⟨_, h⟩
      | tight h => exact ⟨_, h⟩
      | loose h => exact ⟨_, h⟩
  | _, _, _, .root g1 hb g2 => by
    have ih := WBody.meansWs hb
    have i1 := Gap.meansWs g1
    have i2 := Gap.meansWs g2
    refine ⟨fun d hd he => ?_, fun hn => absurd rfl hn, ?_⟩
    · have hx := H.body d hd
      rw [he] at hx
      have := ih _ _ hx
      exact .root hd ((H.rootName d hd).2 he) i1 this i2
    · cases hb with
      | char h => exact ⟨_, h⟩
      | choice h => exact ⟨_, h⟩
      | tight h => exact ⟨_, h⟩
      | loose h => exact ⟨_, h⟩

theorem WBody.meansWs : ∀ {n : Name} {i j : Nat}, WBody W input n i j → ∀ (e : DExpr) (ct : Commit), WsBody W doc n ct e →
    MeansWs doc input (ct.noWhitespace || ct.whitespace) ct.noWhitespace e i j
  | _, _, _, .char h1 h2 h3 h4, e, ct, hb => by
    exfalso
    cases e with
    | any => obtain ⟨-, gd, k1, k2⟩ := hb.toBody.any; rw [h1] at k1; cases k1; rw [h2] at k2; cases k2
    | class_ => obtain ⟨-, gd, k1, k2⟩ := hb.toBody.class_; rw [h1] at k1; cases k1; rw [h2] at k2; cases k2
    | chars => obtain ⟨-, gd, k1, k2⟩ := hb.toBody.chars; rw [h1] at k1; cases k1; rw [h2] at k2; cases k2
    | symbol => obtain ⟨gd, k1, k2⟩ := hb.toBody.symbol; rw [h1] at k1; cases k1; rw [h2] at k2; cases k2
    | seq => obtain ⟨-, gd, k1, k2⟩ := hb.toBody.seq; rw [h1] at k1; cases k1; rw [h2] at k2; cases k2
    | choice => obtain ⟨-, gd, k1, k2⟩ := hb.toBody.choice; rw [h1] at k1; cases k1; rw [h2] at k2; cases k2
  | _, _, _, .choice h1 h2 h3 h4, e, ct, hb => by
    have ih := WDerives.meansWs h4
    cases e with
    | any => obtain ⟨-, gd, k1, k2⟩ := hb.toBody.any; rw [h1] at k1; cases k1; rw [h2] at k2; cases k2
    | class_ => obtain ⟨-, gd, k1, k2⟩ := hb.toBody.class_; rw [h1] at k1; cases k1; rw [h2] at k2; cases k2
    | chars => obtain ⟨-, gd, k1, k2⟩ := hb.toBody.chars; rw [h1] at k1; cases k1; rw [h2] at k2; cases k2
    | symbol => obtain ⟨gd, k1, k2⟩ := hb.toBody.symbol; rw [h1] at k1; cases k1; rw [h2] at k2; cases k2
    | seq => obtain ⟨-, gd, k1, k2⟩ := hb.toBody.seq; rw [h1] at k1; cases k1; rw [h2] at k2; cases k2
    | choice os =>
      obtain ⟨-, gd, k1, k2⟩ := hb.toBody.choice
      rw [h1] at k1; cases k1; rw [h2] at k2; cases k2
      exact .choice (options_ws H ih hb.options h3)
  | _, _, _, .tight h1 h2 h3 h4, e, ct, hb => by
    have ih := WTight.meansWs h4
    exact seq_ws H (.tight h1 h2 h3 h4) h1 h2 hb (fun _ _ _ _ k1 k2 => by
      refine Or.inl ⟨?_, ih _ _ _ _ k1 k2⟩
      exact h3)
  | _, _, _, .loose h1 h2 h3 h4, e, ct, hb => by
    have ih := WLoose.meansWs h4
    exact seq_ws H (.loose h1 h2 h3 h4) h1 h2 hb (fun _ _ _ _ k1 k2 => by
      refine Or.inr ⟨?_, ih _ _ _ _ k1 k2⟩
      exact h3)

theorem Gap.meansWs : ∀ {i j : Nat}, Gap W input i j → GapWs doc input i j
  | _, _, .nil => .nil
  | _, _, .cons g hw hd => by
    have ih := Gap.meansWs g
    have ih' := WDerives.meansWs hd
    obtain ⟨d, h1, h2, h3⟩ := (H.ws _).1 hw
    exact .cons ih h2 (ih'.1 d h1 h3)

theorem WTight.meansWs : ∀ {l : List (Name × Int × Int)} {i j : Nat}, WTight W input l i j →
    ∀ (n : Name) (ct : Commit) (x : Nat) (items : DItems), WsItems W doc n ct x items → l = (items.refs n x).map SeqItem.bounded →
    TightWs doc input ct.noWhitespace items i j
  | _, _, _, .nil, n, ct, x, items, hb, hl => by
    cases items with
    | nil => exact .nil
    | cons => cases hl
  | _, _, _, .cons h1 h2 h3, n, ct, x, items, hb, hl => by
    have ih := WTimes.meansWs h1
    have ih' := WTight.meansWs h3
    cases items with
    | nil => cases hl
    | cons e q rest =>
      obtain ⟨k1, k2, k3⟩ := hb.cons H.noColon
      simp only [DItems.refs, List.map_cons, List.cons.injEq, SeqItem.bounded, Prod.mk.injEq, Prod.ext_iff] at hl
      obtain ⟨⟨rfl, rfl, rfl⟩, hl⟩ := hl
      exact .cons (ih _ _ k1) ((itemRange_allowed k2 _).1 h2) (ih' _ _ _ _ k3 hl)

theorem WTimes.meansWs : ∀ {n : Name} {k i j : Nat}, WTimes W input n k i j → ∀ (inner : Bool) (e : DExpr),
    WsRef W doc inner n e → TimesWs doc input inner e k i j
  | _, _, _, _, .zero, _, _, _ => .zero
  | _, _, _, _, .succ h1 h2, inner, e, hr => .succ (WTimes.meansWs h1 inner e hr) (ref_ws (WDerives.meansWs h2) hr)

theorem WLoose.meansWs : ∀ {first : Bool} {l : List (Name × Int × Int)} {i j : Nat}, WLoose W input first l i j →
    ∀ (n : Name) (ct : Commit) (x : Nat) (items : DItems), WsItems W doc n ct x items → l = (items.refs n x).map SeqItem.bounded →
    LooseWs doc input ct.noWhitespace first items i j
  | _, _, _, _, .nil, n, ct, x, items, hb, hl => by
    cases items with
    | nil => exact .nil
    | cons => cases hl
  | _, _, _, _, .cons h1 h2 h3, n, ct, x, items, hb, hl => by
    have ih := WOcc.meansWs h1
    have ih' := WLoose.meansWs h3
    cases items with
    | nil => cases hl
    | cons e q rest =>
      obtain ⟨k1, k2, k3⟩ := hb.cons H.noColon
      simp only [DItems.refs, List.map_cons, List.cons.injEq, SeqItem.bounded, Prod.mk.injEq, Prod.ext_iff] at hl
      obtain ⟨⟨rfl, rfl, rfl⟩, hl⟩ := hl
      exact .cons (ih _ _ k1) ((itemRange_allowed k2 _).1 h2) (ih' _ _ _ _ k3 hl)
  | _, _, _, _, .absent h1 g h3, n, ct, x, items, hb, hl => by
    have ih := Gap.meansWs g
    have ih' := WLoose.meansWs h3
    cases items with
    | nil => cases hl
    | cons e q rest =>
      obtain ⟨k1, k2, k3⟩ := hb.cons H.noColon
      simp only [DItems.refs, List.map_cons, List.cons.injEq, SeqItem.bounded, Prod.mk.injEq, Prod.ext_iff] at hl
      obtain ⟨⟨rfl, hmn, hmx⟩, hl⟩ := hl
      obtain ⟨a1, a2, a3⟩ := (itemRange_absent k2).1 ⟨hmn ▸ h1, hmx.symm⟩
      exact .absent a1 a2 a3 ih (ih' _ _ _ _ k3 hl)

theorem WOcc.meansWs : ∀ {first : Bool} {n : Name} {k i j : Nat}, WOcc W input first n k i j → ∀ (inner : Bool) (e : DExpr),
    WsRef W doc inner n e → OccWs doc input inner first e k i j
  | _, _, _, _, _, .zero, _, _, _ => .zero
  | _, _, _, _, _, .first h, inner, e, hr => .first (ref_ws (WDerives.meansWs h) hr)
  | _, _, _, _, _, .succ h1 h2 g h3, inner, e, hr =>
    .succ (WOcc.meansWs h1 inner e hr) h2 (Gap.meansWs g) (ref_ws (WDerives.meansWs h3) hr)

end

end

/-! ### The grammar of a document -/

theorem document_wsDoc {doc : Document} {s : Syntax} (h : Made (documentCalls doc) s)
    (hsym : PlainSymbols doc) (hsound : ∀ d ∈ doc, d.expr.Sound) :
    WsDoc (wgrammarOf (documentCalls doc)) doc := by
  have hroot : (wgrammarOf (documentCalls doc)).root = ((docRoot doc).map DDef.name).getD [] := by
    simp only [wgrammarOf, document_root]
  refine ⟨?_, ?_, ?_, ?_⟩
  · intro d hd
    refine ⟨⟨?_, fun m hm => resolved doc ((hsym d hd).2 m hm), hsound d hd⟩, ?_⟩
    · intro c hc x hx
      exact call_grammar h (List.mem_flatMap.2 ⟨d, hd, hc⟩) hx
    · intro c hc
      have hmem : c ∈ documentCalls doc := List.mem_flatMap.2 ⟨d, hd, hc⟩
      simp only [wgrammarOf]
      cases ht : c.isTight with
      | true =>
        rw [List.any_eq_true]
        exact ⟨c, hmem, by simp [ht]⟩
      | false =>
        rw [List.any_eq_false]
        intro c' hc' hx
        simp only [Bool.and_eq_true, beq_iff_eq] at hx
        rw [(call_unique h hc' hmem hx.1).2.2, ht] at hx
        cases hx.2
  · intro d hd
    rw [hroot, IsRoot]
    obtain ⟨r, hr⟩ : ∃ r, docRoot doc = some r := by
      unfold docRoot
      split
      · exact ⟨_, rfl⟩
      · exact ⟨_, List.getLast?_eq_some_getLast (by rintro rfl; cases hd)⟩
    rw [hr]
    simp only [Option.map_some, Option.some.injEq, Option.getD_some]
    exact eq_comm
  · intro w
    simp only [wgrammarOf, List.mem_map, List.mem_filter, Call.isWs]
    constructor
    · rintro ⟨c, ⟨hc, hw⟩, rfl⟩
      obtain ⟨d, hd, hc⟩ := List.mem_flatMap.1 hc
      obtain ⟨pre, c', h1, h2, h3, h4⟩ := calls_main d.expr d.name { d.flags with userDefined := true }
      rw [h1, List.mem_append, List.mem_singleton] at hc
      rcases hc with hc | rfl
      · rw [(h4 c hc).2.1] at hw; cases hw
      · rw [h3] at hw
        exact ⟨d, hd, hw, h2.symm⟩
    · rintro ⟨d, hd, hw, rfl⟩
      obtain ⟨pre, c', h1, h2, h3, h4⟩ := calls_main d.expr d.name { d.flags with userDefined := true }
      exact ⟨c', ⟨List.mem_flatMap.2 ⟨d, hd, by rw [h1]; simp⟩, by rw [h3]; exact hw⟩, h2⟩
  · rw [hroot]
    cases hr : docRoot doc with
    | none => simp [NoColon]
    | some r => exact (hsym r (docRoot_mem hr)).1

/-- The grammar of the calls, with whitespace, derives what the document means. -/
theorem document_language_ws {doc : Document} {s : Syntax} (h : Made (documentCalls doc) s)
    (hsym : PlainSymbols doc) (hsound : ∀ d ∈ doc, d.expr.Sound)
    {d : DDef} (hd : d ∈ doc) (input : List Rune) (i j : Nat) :
    WDerives (wgrammarOf (documentCalls doc)) input d.name i j ↔ DefWs doc input d i j := by
  have H := document_wsDoc h hsym hsound
  exact ⟨fun hx => (WDerives.meansWs H hx).1 d hd rfl, fun hx => DefWs.derives H hx⟩

/-! ### The conditions on documents with whitespace definitions -/

theorem memberName_child {n : Name} (h : MemberName n) (i : Nat) : MemberName (charName n i) := by
  rw [charName_eq]
  refine ⟨?_, numbered_child h.2 i⟩
  have := h.1
  unfold childName
  rw [parts_append]
  cases hp : parts n with
  | nil => exact absurd hp (parts_ne n)
  | cons x xs => rw [hp] at this; exact this

theorem memberName_symbol {n : Name} (h : NoColon n) (hn : isNumber n = false) : MemberName n := by
  refine ⟨?_, numbered_noColon h⟩
  rw [parts_noColon h]
  exact hn

mutual

theorem calls_members : ∀ (e : DExpr) {n : Name} {ct : Commit}, MemberName n → (∀ m ∈ e.symbols, MemberName m) →
    ∀ c ∈ e.calls n ct, MemberName c.name ∧ ∀ r ∈ c.refs, MemberName r
  | .any, n, ct, hn, hs, c, h => by simp only [DExpr.calls, List.mem_singleton] at h; subst h; exact ⟨hn, by simp [Call.refs]⟩
  | .class_ .., n, ct, hn, hs, c, h => by simp only [DExpr.calls, List.mem_singleton] at h; subst h; exact ⟨hn, by simp [Call.refs]⟩
  | .chars .., n, ct, hn, hs, c, h => by simp only [DExpr.calls, List.mem_singleton] at h; subst h; exact ⟨hn, by simp [Call.refs]⟩
  | .symbol m, n, ct, hn, hs, c, h => by
    simp only [DExpr.calls, List.mem_singleton] at h; subst h
    exact ⟨hn, by simpa [Call.refs] using hs m (by simp [DExpr.symbols])⟩
  | .seq items, n, ct, hn, hs, c, h => by
    simp only [DExpr.calls, List.mem_append, List.mem_singleton] at h
    obtain ⟨k1, k2⟩ := itemsCalls_members items (ct := ct) (i := 0) hn hs
    rcases h with h | rfl
    · exact k1 c h
    · exact ⟨hn, by
        intro r hr
        obtain ⟨it, h1, rfl⟩ := List.mem_map.1 hr
        exact k2 it h1⟩
  | .choice os, n, ct, hn, hs, c, h => by
    simp only [DExpr.calls, List.mem_append, List.mem_singleton] at h
    obtain ⟨k1, k2⟩ := optionsCalls_members os (ct := ct) (i := 0) hn hs
    rcases h with h | rfl
    · exact k1 c h
    · exact ⟨hn, k2⟩

theorem itemsCalls_members : ∀ (items : DItems) {n : Name} {ct : Commit} {i : Nat}, MemberName n → (∀ m ∈ items.symbols, MemberName m) →
    (∀ c ∈ items.calls n ct i, MemberName c.name ∧ ∀ r ∈ c.refs, MemberName r) ∧ ∀ it ∈ items.refs n i, MemberName it.name
  | .nil, _, _, _, _, _ => by simp [DItems.calls, DItems.refs]
  | .cons e q rest, n, ct, i, hn, hs => by
    simp only [DItems.symbols, List.mem_append] at hs
    have h1 := calls_members e (ct := memberFlags ct) (memberName_child hn i) (fun m hm => hs m (Or.inl hm))
    obtain ⟨h2, h3⟩ := itemsCalls_members rest (ct := ct) (i := i + 1) hn (fun m hm => hs m (Or.inr hm))
    refine ⟨fun c h => ?_, ?_⟩
    · have key : c ∈ e.calls (charName n i) (memberFlags ct) ∨ c ∈ rest.calls n ct (i + 1) := by
        cases e <;> simp only [DItems.calls, List.mem_append] at h <;> first | exact h | exact Or.inr h
      rcases key with h | h
      · exact h1 c h
      · exact h2 c h
    · intro it hit
      simp only [DItems.refs, List.mem_cons] at hit
      rcases hit with rfl | hit
      · cases e <;> first
          | exact hs ‹Name› (Or.inl (List.mem_singleton.2 rfl))
          | exact memberName_child hn i
      · exact h3 it hit

theorem optionsCalls_members : ∀ (os : DOptions) {n : Name} {ct : Commit} {i : Nat}, MemberName n → (∀ m ∈ os.symbols, MemberName m) →
    (∀ c ∈ os.calls n ct i, MemberName c.name ∧ ∀ r ∈ c.refs, MemberName r) ∧ ∀ o ∈ os.refs n i, MemberName o
  | .nil, _, _, _, _, _ => by simp [DOptions.calls, DOptions.refs]
  | .cons e rest, n, ct, i, hn, hs => by
    simp only [DOptions.symbols, List.mem_append] at hs
    have h1 := calls_members e (ct := memberFlags ct) (memberName_child hn i) (fun m hm => hs m (Or.inl hm))
    obtain ⟨h2, h3⟩ := optionsCalls_members rest (ct := ct) (i := i + 1) hn (fun m hm => hs m (Or.inr hm))
    refine ⟨fun c h => ?_, ?_⟩
    · have key : c ∈ e.calls (charName n i) (memberFlags ct) ∨ c ∈ rest.calls n ct (i + 1) := by
        cases e <;> simp only [DOptions.calls, List.mem_append] at h <;> first | exact h | exact Or.inr h
      rcases key with h | h
      · exact h1 c h
      · exact h2 c h
    · intro o ho
      simp only [DOptions.refs, List.mem_cons] at ho
      rcases ho with rfl | ho
      · cases e <;> first
          | exact hs ‹Name› (Or.inl (List.mem_singleton.2 rfl))
          | exact memberName_child hn i
      · exact h3 o ho

end

theorem document_wsSafe {doc : Document} (hsym : PlainSymbols doc) (hws : DocumentWsSafe doc) : WsSafe (documentCalls doc) := by
  rintro ⟨c, hc, hw⟩
  have : ∃ d ∈ doc, d.flags.whitespace = true := by
    apply Classical.byContradiction
    intro hn
    have := (documentCalls_commit (doc := doc) (f := Commit.whitespace) (fun _ => rfl) (fun _ h => Or.inr (Or.inl h))).2 (fun d hd => by
      cases hx : d.flags.whitespace with
      | false => rfl
      | true => exact absurd ⟨d, hd, hx⟩ hn)
    rw [Call.isWs, this c hc] at hw
    cases hw
  have hx := hws this
  refine ⟨Or.inr ?_, ?_⟩
  · intro c hc
    obtain ⟨d, hd, hc⟩ := List.mem_flatMap.1 hc
    exact calls_members d.expr (memberName_symbol (hsym d hd).1 (hx d hd).1)
      (fun m hm => memberName_symbol ((hsym d hd).2 m hm) ((hx d hd).2.1 m hm)) c hc
  · intro c hc hk
    obtain ⟨d, hd, hc⟩ := List.mem_flatMap.1 hc
    obtain ⟨pre, c', h1, h2, h3, h4⟩ := calls_main d.expr d.name { d.flags with userDefined := true }
    have hc' := hc
    rw [h1, List.mem_append, List.mem_singleton] at hc'
    rcases hc' with hc' | rfl
    · rw [(h4 c hc').2.2] at hk; cases hk
    · have hk' : d.flags.keyword = true := by rw [h3] at hk; exact hk
      rcases (hx d hd).2.2 hk' with h | h | ⟨cs, h⟩ | ⟨os, h⟩
      · left; simp only [Call.isTight, h3, h, Bool.true_or]
      · left; simp only [Call.isTight, h3, h, Bool.or_true, Bool.true_or]
      · left
        rw [h] at hc
        simp only [DExpr.calls, List.mem_singleton] at hc
        subst hc
        simp [Call.isTight]
      · right
        rw [h] at h1
        simp only [DExpr.calls] at h1
        have := (List.append_inj' h1 rfl).2
        simp only [List.cons.injEq, and_true] at this
        exact ⟨_, _, _, this.symm⟩

end Treerack
