import Verif.Proofs.Format
import Verif.Proofs.DocLang

/-
`format` on the definitions of a document.
-/

namespace Treerack
open Spec

variable {s : Syntax}

theorem faceOf_some {n : Name} {f : Face} (h : s.faceOf n = some f) :
    ∃ d, s.defined n = some d ∧ d.name = f.1 ∧ d.kind = f.2.1 ∧ d.commitType.userDefined = f.2.2 := by
  unfold Syntax.faceOf at h
  obtain ⟨d, h1, h2⟩ := Option.map_eq_some_iff.1 h
  subst h2
  exact ⟨d, h1, rfl, rfl, rfl⟩

/-- The definitions of the calls are registered. -/
def Placed (s : Syntax) (cs : List Call) : Prop := ∀ c ∈ cs, ∀ f ∈ c.faces, s.faceOf f.1 = some f

theorem Placed.left {a b : List Call} (h : Placed s (a ++ b)) : Placed s a := fun c hc => h c (List.mem_append_left _ hc)
theorem Placed.right {a b : List Call} (h : Placed s (a ++ b)) : Placed s b := fun c hc => h c (List.mem_append_right _ hc)

/-- The symbol is the name of a definition made by the user. -/
def Known (s : Syntax) (m : Name) : Prop := ∃ d, s.defined m = some d ∧ d.name = m ∧ d.commitType.userDefined = true

theorem user_notChar {d : Def} (h : d.commitType.userDefined = true) : d.singleChar = none := by
  unfold Def.singleChar
  unfold Def.commitType at h
  cases hk : d.kind with
  | char neg cs rs => rw [hk] at h; cases h
  | _ => rfl

/-! ### Characters -/

/-- A definition of one class. -/
theorem format_class {d dc : Def} {cn : Name} {neg : Bool} {cs : List Rune} {rs : List (Rune × Rune)}
    (hd : d.kind = .seq [{ name := cn }] [{ name := cn }] [] [] false) (hc : s.defined cn = some dc) (hk : dc.kind = .char neg cs rs)
    {k : Nat} (h : 2 ≤ k) : s.format k d = .ok (formatChar neg cs rs) := by
  obtain ⟨k, rfl⟩ : ∃ j, k = j + 2 := ⟨k - 2, by omega⟩
  have hu : dc.commitType.userDefined = false := by unfold Def.commitType; rw [hk]
  have hn : normalizeItemRange { name := cn } = { name := cn, min := 1, max := 1 } := rfl
  rw [Syntax.format, hd]
  simp only
  split
  · rename_i hcs
    have : dc.singleChar.isSome = true := by
      simpa [Syntax.isCharSequence, hn, hc] using hcs
    unfold Def.singleChar at this
    rw [hk] at this
    match neg, cs, rs, hk, this with
    | false, [c], [], hk, _ =>
      have : dc.singleChar = some c := by unfold Def.singleChar; rw [hk]
      simp [Syntax.formatChars, hc, this]
  · have h1 : s.formatMember (s.format (k + 1)) dc = .ok (formatChar neg cs rs) := by
      unfold Syntax.formatMember
      rw [hu, Syntax.format, hk]
      simp [Syntax.needsGrouping, hk]
    simp [Syntax.formatItems, hn, hc]
    rw [h1]
    simp [Syntax.formatItems, format_once]

theorem filterMap_zip {f : Nat → Option Rune} : ∀ (cs : List Rune) (i : Nat), (∀ x ∈ cs.zipIdx i, f x.2 = some x.1) →
    (List.range' i cs.length).filterMap f = cs
  | [], _, _ => rfl
  | c :: cs, i, h => by
    rw [List.length_cons, List.range'_succ, List.filterMap_cons, h (c, i) (by simp)]
    simp only [List.cons.injEq, true_and]
    exact filterMap_zip cs (i + 1) fun x hx => h x (by rw [List.zipIdx_cons]; exact List.mem_cons_of_mem _ hx)

theorem zip_some {f : Nat → Option Rune} : ∀ (cs : List Rune) (i : Nat), (∀ x ∈ cs.zipIdx i, f x.2 = some x.1) →
    ∀ j ∈ List.range' i cs.length, (f j).isSome = true
  | [], _, _, j, hj => by simp at hj
  | c :: cs, i, h, j, hj => by
    rw [List.length_cons, List.range'_succ, List.mem_cons] at hj
    rcases hj with rfl | hj
    · rw [h (c, j) (by simp)]; rfl
    · exact zip_some cs (i + 1) (fun x hx => h x (by rw [List.zipIdx_cons]; exact List.mem_cons_of_mem _ hx)) j hj

theorem chars_placed {n : Name} {ct : Commit} {cs : List Rune} (h : Placed s [.charSequence n ct cs]) :
    ∀ x ∈ cs.zipIdx 0, (s.defined (childName n x.2)).bind Def.singleChar = some x.1 := by
  intro x hx
  obtain ⟨d, h1, h2, h3, -⟩ := faceOf_some (h _ (List.mem_singleton.2 rfl) (newChar (childName n x.2) false [x.1] []).face (by
    simp only [Call.faces]
    exact List.mem_append_left _ (List.mem_map.2 ⟨x, hx, rfl⟩)))
  have h1' : s.defined (childName n x.2) = some d := h1
  have h3' : d.kind = .char false [x.1] [] := h3
  rw [h1', Option.bind_some, Def.singleChar, h3']

theorem chars_isCharSequence {n : Name} {ct : Commit} {cs : List Rune} (h : Placed s [.charSequence n ct cs]) :
    s.isCharSequence ((List.range cs.length).map fun i => { name := childName n i }) = true := by
  have hz := zip_some (f := fun i => (s.defined (childName n i)).bind Def.singleChar) cs 0 (chars_placed h)
  unfold Syntax.isCharSequence
  rw [List.all_map, List.all_eq_true]
  intro i hi
  rw [List.range_eq_range'] at hi
  have := hz i hi
  simp only [Function.comp_apply]
  rw [this]
  rfl

def charsText : List Rune → List Rune
  | [c] => formatChar false [c] []
  | cs => runes "\"" ++ classEsc cs ++ runes "\""

theorem format_charSequence {d : Def} {n : Name} {ct : Commit} {cs : List Rune} (h : Placed s [.charSequence n ct cs])
    (hd : d.kind = .seq ((List.range cs.length).map fun i => { name := childName n i })
      ((List.range cs.length).map fun i => { name := childName n i }) [] [] false) {k : Nat} (hk : 1 ≤ k) :
    s.format k d = .ok (charsText cs) := by
  obtain ⟨k, rfl⟩ : ∃ j, k = j + 1 := ⟨k - 1, by omega⟩
  rw [Syntax.format, hd]
  simp only
  rw [chars_isCharSequence h, if_pos rfl]
  have : ((List.range cs.length).map fun i => ({ name := childName n i } : SeqItem)).filterMap
      (fun item => (s.defined item.name).bind Def.singleChar) = cs := by
    rw [List.filterMap_map, List.range_eq_range']
    exact filterMap_zip (f := fun i => (s.defined (childName n i)).bind Def.singleChar) cs 0 (chars_placed h)
  unfold Syntax.formatChars
  rw [this]
  rfl

/-! ### Members -/

/-- The definition of an expression is not a single character. -/
theorem main_def {n : Name} {ct : Commit} : ∀ (e : DExpr), Placed s (e.calls n ct) →
    ∃ d, s.defined n = some d ∧ d.name = n ∧ d.commitType.userDefined = ct.userDefined ∧ d.singleChar = none := by
  have key : ∀ (c : Call) (f : Face), c.name = n → f ∈ c.faces → Placed s [c] → f.1 = n → f.2.2 = ct.userDefined →
      (∀ neg cs rs, f.2.1 ≠ .char neg cs rs) →
      ∃ d, s.defined n = some d ∧ d.name = n ∧ d.commitType.userDefined = ct.userDefined ∧ d.singleChar = none := by
    intro c f hc hf hp h1 h2 h3
    obtain ⟨d, k1, k2, k3, k4⟩ := faceOf_some (hp c (List.mem_singleton.2 rfl) f hf)
    refine ⟨d, h1 ▸ k1, k2.trans h1, k4.trans h2, ?_⟩
    unfold Def.singleChar
    rw [k3]
    split
    · rename_i hk; exact absurd hk (h3 _ _ _)
    · rfl
  intro e h
  cases e with
  | any => exact key _ (newSequence n ct [{ name := childName n 0 }]).face rfl (by simp [Call.faces]) h rfl rfl (by intros; nofun)
  | class_ neg cs rs =>
    exact key _ (newSequence n ct [{ name := childName n 0 }]).face rfl (by simp [Call.faces]) h rfl rfl (by intros; nofun)
  | chars cs =>
    exact key _ (newSequence n { ct with noWhitespace := true } ((List.range cs.length).map fun i => { name := childName n i })).face rfl
      (by simp [Call.faces]) h rfl rfl (by intros; nofun)
  | symbol m => exact key _ (newSequence n ct [{ name := m }]).face rfl (by simp [Call.faces]) h rfl rfl (by intros; nofun)
  | seq items => exact key _ (newSequence n ct (items.refs n 0)).face rfl (by simp [Call.faces]) h.right rfl rfl (by intros; nofun)
  | choice os => exact key _ (newChoice n ct (os.refs n 0)).face rfl (by simp [Call.faces]) h.right rfl rfl (by intros; nofun)

theorem items_cons_placed {n : Name} {ct : Commit} {i : Nat} {e : DExpr} {q : Option Quantifier} {rest : DItems}
    (h : Placed s (DItems.calls n ct i (.cons e q rest))) :
    ((∃ m, e = .symbol m) ∨ Placed s (e.calls (charName n i) (memberFlags ct)) ∧ memberName n i e = charName n i) ∧
      Placed s (rest.calls n ct (i + 1)) := by
  cases e <;> simp only [DItems.calls] at h
  case symbol m => exact ⟨.inl ⟨m, rfl⟩, h⟩
  all_goals exact ⟨.inr ⟨h.left, rfl⟩, h.right⟩

theorem options_cons_placed {n : Name} {ct : Commit} {i : Nat} {e : DExpr} {rest : DOptions}
    (h : Placed s (DOptions.calls n ct i (.cons e rest))) :
    ((∃ m, e = .symbol m) ∨ Placed s (e.calls (charName n i) (memberFlags ct)) ∧ memberName n i e = charName n i) ∧
      Placed s (rest.calls n ct (i + 1)) := by
  cases e <;> simp only [DOptions.calls] at h
  case symbol m => exact ⟨.inl ⟨m, rfl⟩, h⟩
  all_goals exact ⟨.inr ⟨h.left, rfl⟩, h.right⟩

/-- The sequences of documents are not character sequences. -/
theorem items_notChars {n : Name} {ct : Commit} {i : Nat} {e : DExpr} {q : Option Quantifier} {rest : DItems}
    (h : Placed s (DItems.calls n ct i (.cons e q rest))) (hk : ∀ m ∈ e.symbols, Known s m) :
    s.isCharSequence (DItems.refs n i (.cons e q rest)) = false := by
  have : (s.defined (memberName n i e)).bind Def.singleChar = none := by
    rcases (items_cons_placed h).1 with ⟨m, rfl⟩ | ⟨h1, h2⟩
    · obtain ⟨d, k1, -, k2⟩ := hk m (by simp [DExpr.symbols])
      show (s.defined m).bind Def.singleChar = none
      rw [k1]
      exact user_notChar k2
    · obtain ⟨d, k1, -, -, k2⟩ := main_def e h1
      rw [h2, k1]
      exact k2
  unfold Syntax.isCharSequence
  rw [DItems.refs, List.all_cons]
  simp only [this, Option.isSome_none, Bool.and_false, Bool.false_and]

theorem main_grouping {n : Name} {ct : Commit} (e : DExpr) (h : Placed s (e.calls n ct)) (hk : ∀ m ∈ e.symbols, Known s m)
    (hp : DExpr.Proper e) {d : Def} (hd : s.defined n = some d) : s.needsGrouping d = DExpr.grouped e := by
  have key : ∀ (c : Call) (f : Face), f ∈ c.faces → Placed s [c] → f.1 = n → d.kind = f.2.1 := by
    intro c f hf hp h1
    obtain ⟨d', k1, k2, k3, k4⟩ := faceOf_some (hp c (List.mem_singleton.2 rfl) f hf)
    rw [h1, hd] at k1
    cases k1
    exact k3
  unfold Syntax.needsGrouping
  match e, h, hk, hp with
  | .any, h, _, _ =>
    rw [key _ (newSequence n ct [{ name := childName n 0 }]).face (by simp [Call.faces]) h rfl]; rfl
  | .class_ neg cs rs, h, _, _ =>
    rw [key _ (newSequence n ct [{ name := childName n 0 }]).face (by simp [Call.faces]) h rfl]; rfl
  | .chars cs, h, _, _ =>
    rw [key _ (newSequence n { ct with noWhitespace := true } ((List.range cs.length).map fun i => { name := childName n i })).face
      (by simp [Call.faces]) h rfl]
    simp only [Def.face, newSequence]
    rw [chars_isCharSequence h]
    simp [DExpr.grouped]
  | .symbol m, h, _, _ =>
    rw [key _ (newSequence n ct [{ name := m }]).face (by simp [Call.faces]) h rfl]; rfl
  | .choice (.cons a (.cons b rest)), h, _, hp =>
    rw [key _ (newChoice n ct (DOptions.refs n 0 (.cons a (.cons b rest)))).face (by simp [Call.faces]) h.right rfl]
    simp [Def.face, newChoice, DOptions.refs, DExpr.grouped]
  | .choice .nil, _, _, hp => exact hp.1.elim
  | .choice (.cons a .nil), _, _, hp => exact hp.1.elim
  | .seq .nil, _, _, hp => exact hp.1.elim
  | .seq (.cons a q .nil), h, _, _ =>
    rw [key _ (newSequence n ct (DItems.refs n 0 (.cons a q .nil))).face (by simp [Call.faces]) h.right rfl]; rfl
  | .seq (.cons a q (.cons b r rest)), h, hk, _ =>
    rw [key _ (newSequence n ct (DItems.refs n 0 (.cons a q (.cons b r rest)))).face (by simp [Call.faces]) h.right rfl]
    simp only [Def.face, newSequence]
    rw [items_notChars (Placed.left (s := s) h) fun m hm => hk m (by simp [DExpr.symbols, DItems.symbols, hm])]
    simp [DItems.refs, DExpr.grouped]

/-! ### Expressions -/

theorem charsText_written {b : Bool} {cs : List Rune} (h : cs.length = 1 ∨ 34 ∉ cs) :
    ∃ e, WrittenPrimary e (charsText cs) ∧ Alike b e (.chars cs) ∧ DExpr.NotSeq e := by
  have quoted : cs.length ≠ 1 → ∃ e, WrittenPrimary e (charsText cs) ∧ Alike b e (.chars cs) ∧ DExpr.NotSeq e := by
    intro hl
    have h1 := WrittenPrimary.chars (classEsc_quoted (h.resolve_left hl))
    refine ⟨.chars cs, ?_, .refl _, trivial⟩
    have : charsText cs = 34 :: classEsc cs ++ [34] := by
      unfold charsText
      split
      · exact absurd rfl hl
      · simp [runes]
    rw [this]
    exact h1
  match cs, h, quoted with
  | [], _, quoted => exact quoted (by simp)
  | [c], _, _ =>
    obtain ⟨e, h1, h2, h3⟩ := formatChar_written false [c] []
    exact ⟨e, h1, Alike.trans h2 (.char c), h3⟩
  | _ :: _ :: _, _, quoted => exact quoted (by simp)


/-- The space between two items. -/
def sep (acc : List Rune) : List Rune := if acc.length > 0 then runes " " else []

theorem sep_append {acc t : List Rune} (h : t ≠ []) : sep (acc ++ t) = runes " " := by
  unfold sep
  have : 0 < t.length := List.length_pos_iff.2 h
  rw [if_pos (by rw [List.length_append]; omega)]

variable {b : Bool}

mutual

theorem format_expr : ∀ (e : DExpr) {n : Name} {ct : Commit}, Placed s (e.calls n ct) → (∀ m ∈ e.symbols, Known s m) →
    DExpr.Proper e → e.Sound → e.Printable → (b = false → e.Spread) →
    ∃ N t, (∀ k, N ≤ k → ∀ d, s.defined n = some d → s.format k d = .ok t) ∧ Shape b e t
  | .any, n, ct, hp, _, _, _, _, _ => by
    obtain ⟨dc, h1, -, h2, -⟩ := faceOf_some (hp _ (List.mem_singleton.2 rfl) (newChar (childName n 0) true [] []).face (by simp [Call.faces]))
    obtain ⟨d, h3, -, h4, -⟩ := faceOf_some (hp _ (List.mem_singleton.2 rfl) (newSequence n ct [{ name := childName n 0 }]).face
      (by simp [Call.faces]))
    obtain ⟨e', h5, h6, h7⟩ := formatChar_written (b := b) true [] []
    refine ⟨2, _, fun k hk d' hd' => ?_, shape_plain (e := .any) trivial h5 (Alike.trans h6 (Alike.symm .any)) h7⟩
    obtain rfl : d = d' := Option.some.inj (h3.symm.trans hd')
    exact format_class h4 h1 h2 hk
  | .class_ neg cs rs, n, ct, hp, _, _, _, _, _ => by
    obtain ⟨dc, h1, -, h2, -⟩ := faceOf_some (hp _ (List.mem_singleton.2 rfl) (newChar (childName n 0) neg cs rs).face (by simp [Call.faces]))
    obtain ⟨d, h3, -, h4, -⟩ := faceOf_some (hp _ (List.mem_singleton.2 rfl) (newSequence n ct [{ name := childName n 0 }]).face
      (by simp [Call.faces]))
    obtain ⟨e', h5, h6, h7⟩ := formatChar_written (b := b) neg cs rs
    refine ⟨2, _, fun k hk d' hd' => ?_, shape_plain (e := .class_ neg cs rs) trivial h5 h6 h7⟩
    obtain rfl : d = d' := Option.some.inj (h3.symm.trans hd')
    exact format_class h4 h1 h2 hk
  | .chars cs, n, ct, hp, _, _, _, hpr, _ => by
    obtain ⟨d, h3, -, h4, -⟩ := faceOf_some (hp _ (List.mem_singleton.2 rfl)
      (newSequence n { ct with noWhitespace := true } ((List.range cs.length).map fun i => { name := childName n i })).face
      (by simp [Call.faces]))
    obtain ⟨e', h5, h6, h7⟩ := charsText_written (b := b) hpr
    refine ⟨1, _, fun k hk d' hd' => ?_, shape_plain (e := .chars cs) trivial h5 h6 h7⟩
    obtain rfl : d = d' := Option.some.inj (h3.symm.trans hd')
    exact format_charSequence hp h4 hk
  | .symbol m, n, ct, hp, hk, hpp, _, _, _ => by
    obtain ⟨d, h3, -, h4, -⟩ := faceOf_some (hp _ (List.mem_singleton.2 rfl) (newSequence n ct [{ name := m }]).face
      (by simp [Call.faces]))
    obtain ⟨dm, k1, k2, k3⟩ := hk m (by simp [DExpr.symbols])
    refine ⟨1, m, fun k hk d' hd' => ?_, shape_plain (e := .symbol m) trivial (.symbol hpp) (.refl _) trivial⟩
    obtain rfl : d = d' := Option.some.inj (h3.symm.trans hd')
    have h4' : d.kind = .seq [{ name := m }] [{ name := m }] [] [] false := h4
    obtain ⟨k, rfl⟩ : ∃ j, k = j + 1 := ⟨k - 1, by omega⟩
    have hn : normalizeItemRange { name := m } = { name := m, min := 1, max := 1 } := rfl
    rw [Syntax.format, h4']
    have hc : s.isCharSequence [{ name := m }] = false := by
      simp [Syntax.isCharSequence, k1, user_notChar k3]
    simp [hc, Syntax.formatItems, hn, k1, Syntax.formatMember, k3, k2, format_once]
  | .seq items, n, ct, hp, hk, hpp, hs, hpr, hsp => by
    obtain ⟨d, h3, -, h4, -⟩ := faceOf_some (hp.right _ (List.mem_singleton.2 rfl) (newSequence n ct (items.refs n 0)).face
      (by simp [Call.faces]))
    have hne : items ≠ .nil := by rintro rfl; exact hpp.1.elim
    obtain ⟨N, t, items', h1, h2, h5, h6⟩ := format_items items hne hp.left hk hpp.2 hs hpr hsp
    refine ⟨N + 1, t, fun k hk' d' hd' => ?_, ⟨items', h2, h5, h6⟩⟩
    obtain rfl : d = d' := Option.some.inj (h3.symm.trans hd')
    have h4' : d.kind = .seq (items.refs n 0) (items.refs n 0) [] [] false := h4
    obtain ⟨k, rfl⟩ : ∃ j, k = j + 1 := ⟨k - 1, by omega⟩
    have hc : s.isCharSequence (items.refs n 0) = false := by
      match items, hne, hp, hk with
      | .nil, hne, _, _ => exact absurd rfl hne
      | .cons e q rest, _, hp, hk =>
        exact items_notChars (Placed.left (s := s) hp) fun m hm => hk m (by simp [DExpr.symbols, DItems.symbols, hm])
    rw [Syntax.format, h4']
    simp only [hc, Bool.false_eq_true, if_false]
    have := h1 k (by omega) []
    simpa [sep] using this
  | .choice os, n, ct, hp, hk, hpp, hs, hpr, hsp => by
    obtain ⟨d, h3, -, h4, -⟩ := faceOf_some (hp.right _ (List.mem_singleton.2 rfl) (newChoice n ct (os.refs n 0)).face
      (by simp [Call.faces]))
    have hne : os ≠ .nil := by rintro rfl; exact hpp.1.elim
    obtain ⟨N, t, os', h1, h2, h5, h6⟩ := format_options os hne hp.left hk hpp.2 hs hpr hsp
    refine ⟨N + 1, t, fun k hk' d' hd' => ?_, ⟨os', h2, h5, h6 hpp.1⟩⟩
    obtain rfl : d = d' := Option.some.inj (h3.symm.trans hd')
    have h4' : d.kind = .choice (os.refs n 0) [] := h4
    obtain ⟨k, rfl⟩ : ∃ j, k = j + 1 := ⟨k - 1, by omega⟩
    rw [Syntax.format, h4']
    have := h1 k (by omega) 0 []
    simpa using this

theorem format_items : ∀ (items : DItems) {n : Name} {ct : Commit} {i : Nat}, items ≠ .nil → Placed s (items.calls n ct i) →
    (∀ m ∈ items.symbols, Known s m) → DItems.Proper items → items.Sound → items.Printable → (b = false → items.Spread) →
    ∃ N t items', (∀ k, N ≤ k → ∀ acc, s.formatItems (s.format k) (items.refs n i) acc = .ok (acc ++ sep acc ++ t)) ∧
      WrittenItems items' t ∧ AlikeItems b items' items ∧ (DItems.One items → DItems.One items')
  | .nil, _, _, _, hne, _, _, _, _, _, _ => absurd rfl hne
  | .cons e q rest, n, ct, i, _, hp, hk, hpp, hs, hpr, hsp => by
    have hk1 : ∀ m ∈ e.symbols, Known s m := fun m hm => hk m (by simp [DItems.symbols, hm])
    have hk2 : ∀ m ∈ rest.symbols, Known s m := fun m hm => hk m (by simp [DItems.symbols, hm])
    have groups_true : e.Single → b = true := fun h => by
      cases b with
      | true => rfl
      | false => exact absurd h (hsp rfl).2.1
    -- the text of the item
    obtain ⟨N1, t1, d, g1, g2, g3⟩ : ∃ N1 t1 d, s.defined (memberName n i e) = some d ∧
        (∀ k, N1 ≤ k → s.formatMember (s.format k) d = .ok t1) ∧
        ((∃ e', WrittenPrimary e' t1 ∧ Alike b e' e) ∨
          (e.Single ∧ ∃ e1 q1, WrittenItem e1 q1 t1 ∧ Alike b (.seq (.cons e1 q1 .nil)) e)) := by
      rcases (items_cons_placed hp).1 with ⟨m, he⟩ | ⟨h1, h2⟩
      · subst he
        obtain ⟨dm, k1, k2, k3⟩ := hk1 m (by simp [DExpr.symbols])
        refine ⟨0, m, dm, k1, fun k _ => ?_, .inl ⟨_, .symbol hpp.1, .refl _⟩⟩
        rw [Syntax.formatMember, k3, if_pos rfl, k2]
      · obtain ⟨d, k1, -, k2, -⟩ := main_def e h1
        obtain ⟨N, t, h3, h4⟩ := format_expr e h1 hk1 hpp.1 hs.1 hpr.1 (fun hb => (hsp hb).1)
        have hg := main_grouping e h1 hk1 hpp.1 k1
        refine ⟨N, if DExpr.grouped e then runes "(" ++ t ++ runes ")" else t, d, h2 ▸ k1, fun k hk' => ?_, ?_⟩
        · rw [Syntax.formatMember, k2, if_neg (by simp [memberFlags]), h3 k hk' d k1, Res.bind_ok, hg]
        · rcases Shape.member h4 hpp.1 with h5 | ⟨h5, h6, h7⟩
          · exact .inl h5
          · rw [h6, if_neg (by simp)]
            exact .inr ⟨h5, h7⟩
    -- with the quantifier
    obtain ⟨u, e1, q1, hu, hw, hsame⟩ : ∃ u e1 q1,
        Syntax.formatQuantifier (normalizeItemRange { name := memberName n i e, min := (Spec.itemRange q).1, max := (Spec.itemRange q).2 }) = u ∧
        WrittenItem e1 q1 (t1 ++ u) ∧ ∀ rest', AlikeItems b rest' rest → AlikeItems b (.cons e1 q1 rest') (.cons e q rest) := by
      rcases formatQuantifier_spec (fun x hx => hs.2.1 x hx) (memberName n i e) with ⟨h1, h2⟩ | ⟨q', h1, h2⟩
      · rcases g3 with ⟨e', h3, h4⟩ | ⟨h3, e1, q1, h4, h5⟩
        · exact ⟨[], e', none, h1, by rw [List.append_nil]; exact .once h3,
            fun rest' hr => AlikeItems.cons h4 (fun k => (h2 k).symm) hr⟩
        · exact ⟨[], e1, q1, h1, by rw [List.append_nil]; exact h4, fun rest' hr => AlikeItems.splice (groups_true h3) h5 h2 hr⟩
      · rcases g3 with ⟨e', h3, h4⟩ | ⟨h3, e1, q1, h4, h5⟩
        · exact ⟨_, e', some q', rfl, .many h3 h1, fun rest' hr => AlikeItems.cons h4 h2 hr⟩
        · have hq : q = none := Decidable.byContradiction fun hq => hpr.2.1 hq h3
          subst hq
          have h6 : (2 : Nat) ≠ 1 := by decide
          cases h1
    -- the rest
    have hstep : ∀ k, N1 ≤ k → ∀ acc, s.formatItems (s.format k) (DItems.refs n i (.cons e q rest)) acc =
        s.formatItems (s.format k) (rest.refs n (i + 1)) (acc ++ sep acc ++ (t1 ++ u)) := by
      intro k hk' acc
      have hname : ∀ x : SeqItem, (normalizeItemRange x).name = x.name := by
        intro x
        unfold normalizeItemRange
        split
        · rfl
        · simp only; split <;> split <;> rfl
      rw [DItems.refs, Syntax.formatItems]
      simp only [hname, g1, g2 k hk', Res.bind_ok, hu]
      congr 1
      unfold sep
      split <;> simp
    match rest, hp, hk2, hpp, hs, hpr, hsp, hstep, hsame with
    | .nil, _, _, _, _, _, _, hstep, hsame =>
      refine ⟨N1, t1 ++ u, .cons e1 q1 .nil, fun k hk' acc => ?_, .one hw, hsame _ .nil, fun _ => trivial⟩
      rw [hstep k hk', DItems.refs, Syntax.formatItems]
    | .cons e2 q2 rest2, hp, hk2, hpp, hs, hpr, hsp, hstep, hsame =>
      obtain ⟨N2, t2, items', f1, f2, f3, -⟩ := format_items (.cons e2 q2 rest2) (by nofun) (items_cons_placed hp).2 hk2 hpp.2 hs.2.2 hpr.2.2 (fun hb => (hsp hb).2.2)
      refine ⟨max N1 N2, t1 ++ u ++ [32] ++ t2, .cons e1 q1 items', fun k hk' acc => ?_,
        .cons hw space_layout f2 (by nofun), hsame _ f3, fun h => h.elim⟩
      rw [hstep k (by omega), f1 k (by omega)]
      have : sep (acc ++ sep acc ++ (t1 ++ u)) = [32] := sep_append (WrittenItem.ne_nil hw)
      rw [this]
      simp

theorem format_options : ∀ (os : DOptions) {n : Name} {ct : Commit} {i : Nat}, os ≠ .nil → Placed s (os.calls n ct i) →
    (∀ m ∈ os.symbols, Known s m) → DOptions.Proper os → os.Sound → os.Printable → (b = false → os.Spread) →
    ∃ N t os', (∀ k, N ≤ k → ∀ j acc, s.formatOptions (s.format k) j (os.refs n i) acc =
        .ok (acc ++ (if j > 0 then runes " | " else []) ++ t)) ∧
      WrittenOptions os' t ∧ AlikeOptions b os' os ∧ (DOptions.Several os → DOptions.Several os')
  | .nil, _, _, _, hne, _, _, _, _, _, _ => absurd rfl hne
  | .cons e rest, n, ct, i, _, hp, hk, hpp, hs, hpr, hsp => by
    have hk1 : ∀ m ∈ e.symbols, Known s m := fun m hm => hk m (by simp [DOptions.symbols, hm])
    have hk2 : ∀ m ∈ rest.symbols, Known s m := fun m hm => hk m (by simp [DOptions.symbols, hm])
    obtain ⟨N1, t1, d, a, g1, g2, g3, g4⟩ : ∃ N1 t1 d a, s.defined (memberName n i e) = some d ∧
        (∀ k, N1 ≤ k → (if d.commitType.userDefined then .ok d.name else s.format k d) = Res.ok t1) ∧
        WrittenOptions a t1 ∧ Alike b (.choice a) e := by
      rcases (options_cons_placed hp).1 with ⟨m, he⟩ | ⟨h1, h2⟩
      · subst he
        obtain ⟨dm, k1, k2, k3⟩ := hk1 m (by simp [DExpr.symbols])
        refine ⟨0, m, dm, _, k1, fun k _ => ?_, .one (.primary (.symbol hpp.1)), .one _⟩
        rw [k3, if_pos rfl, k2]
      · obtain ⟨d, k1, -, k2, -⟩ := main_def e h1
        obtain ⟨N, t, h3, h4⟩ := format_expr e h1 hk1 hpp.1 hs.1 hpr.1 (fun hb => (hsp hb).1)
        have hf : ∀ k, N ≤ k → (if d.commitType.userDefined then .ok d.name else s.format k d) = Res.ok t := by
          intro k hk'
          rw [k2, if_neg (by simp [memberFlags]), h3 k hk' d k1]
        by_cases hc : ∃ os, e = .choice os
        · obtain ⟨os, he⟩ := hc
          subst he
          obtain ⟨os', h5, h6, -⟩ := h4
          exact ⟨N, t, d, os', h2 ▸ k1, hf, h5, Alike.choice h6⟩
        · obtain ⟨e', h5, h6⟩ := Shape.option h4 fun os ho => hc ⟨os, ho⟩
          exact ⟨N, t, d, .cons e' .nil, h2 ▸ k1, hf, .one h5, Alike.trans (.one _) h6⟩
    have hstep : ∀ k, N1 ≤ k → ∀ j acc, s.formatOptions (s.format k) j (DOptions.refs n i (.cons e rest)) acc =
        s.formatOptions (s.format k) (j + 1) (rest.refs n (i + 1)) (acc ++ (if j > 0 then runes " | " else []) ++ t1) := by
      intro k hk' j acc
      rw [DOptions.refs, Syntax.formatOptions]
      simp only [g1, g2 k hk', Res.bind_ok]
      congr 1
      split <;> simp
    match rest, hp, hk2, hpp, hs, hpr, hsp, hstep with
    | .nil, _, _, _, _, _, _, hstep =>
      refine ⟨N1, t1, a, fun k hk' j acc => ?_, g3, ?_, fun h => h.elim⟩
      · rw [hstep k hk', DOptions.refs, Syntax.formatOptions]
      · have := AlikeOptions.splice g4 .nil
        rwa [DOptions.append_nil] at this
    | .cons e2 rest2, hp, hk2, hpp, hs, hpr, hsp, hstep =>
      obtain ⟨N2, t2, os', f1, f2, f3, -⟩ := format_options (.cons e2 rest2) (by nofun) (options_cons_placed hp).2 hk2 hpp.2 hs.2 hpr.2 (fun hb => (hsp hb).2)
      refine ⟨max N1 N2, t1 ++ runes " | " ++ t2, DOptions.append a os', fun k hk' j acc => ?_, WrittenOptions.append g3 f2,
        AlikeOptions.splice g4 f3, fun _ => ?_⟩
      · rw [hstep k (by omega), f1 k (by omega), if_pos (Nat.succ_pos j)]
        simp
      · obtain ⟨_, ra, rfl⟩ := WrittenOptions.cons_form g3
        obtain ⟨_, _, rfl⟩ := WrittenOptions.cons_form f2
        cases ra <;> trivial

end

/-! ### The text does not depend on the fuel -/

theorem formatItems_mono {rec rec' : Def → Res (List Rune)} (h : ∀ d t, rec d = .ok t → rec' d = .ok t) :
    ∀ (items : List SeqItem) (acc t : List Rune), s.formatItems rec items acc = .ok t → s.formatItems rec' items acc = .ok t
  | [], _, _, h1 => h1
  | item :: items, acc, t, h1 => by
    rw [Syntax.formatItems] at h1 ⊢
    split at h1
    · cases h1
    · rename_i d hd
      obtain ⟨u, h2, h3⟩ := Res.bind_eq_ok h1
      have : s.formatMember rec' d = .ok u := by
        unfold Syntax.formatMember at h2 ⊢
        split
        · rename_i hu; rwa [if_pos hu] at h2
        · rename_i hu
          rw [if_neg hu] at h2
          obtain ⟨v, h4, h5⟩ := Res.bind_eq_ok h2
          rw [h _ _ h4]
          exact h5
      simp only [this, Res.bind_ok]
      exact formatItems_mono h items _ _ h3

theorem formatOptions_mono {rec rec' : Def → Res (List Rune)} (h : ∀ d t, rec d = .ok t → rec' d = .ok t) :
    ∀ (os : List Name) (i : Nat) (acc t : List Rune), s.formatOptions rec i os acc = .ok t → s.formatOptions rec' i os acc = .ok t
  | [], _, _, _, h1 => h1
  | o :: os, i, acc, t, h1 => by
    rw [Syntax.formatOptions] at h1 ⊢
    split at h1
    · cases h1
    · rename_i d hd
      obtain ⟨u, h2, h3⟩ := Res.bind_eq_ok h1
      have : (if d.commitType.userDefined then .ok d.name else rec' d) = Res.ok u := by
        split
        · rename_i hu; rwa [if_pos hu] at h2
        · rename_i hu
          rw [if_neg hu] at h2
          exact h _ _ h2
      simp only [this, Res.bind_ok]
      exact formatOptions_mono h os _ _ _ h3

theorem format_mono : ∀ {k k' : Nat}, k ≤ k' → ∀ {d : Def} {t : List Rune}, s.format k d = .ok t → s.format k' d = .ok t
  | 0, _, _, _, _, h => by cases h
  | k + 1, 0, hk, _, _, _ => absurd hk (by omega)
  | k + 1, k' + 1, hk, d, t, h => by
    have ih : ∀ d t, s.format k d = .ok t → s.format k' d = .ok t := fun d t => format_mono (by omega)
    rw [Syntax.format] at h ⊢
    split at h
    · exact h
    · exact formatOptions_mono ih _ _ _ _ h
    · split
      · rename_i hc; rwa [if_pos hc] at h
      · rename_i hc
        rw [if_neg hc] at h
        exact formatItems_mono ih _ _ _ h

end Treerack
