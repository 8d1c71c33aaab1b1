import Verif.Model.Wrap
import Verif.Spec.Wrap

/-
The lines made by `wrapLines`.
-/

namespace Treerack
open Spec

theorem splitAt_eq (sep : Rune) : ∀ s, splitAt sep s = pieces sep s
  | [] => rfl
  | c :: cs => by
    have ih := splitAt_eq sep cs
    have e : pieces sep (c :: cs) = if c = sep then [] :: pieces sep cs
      else (c :: (pieces sep cs).headD []) :: (pieces sep cs).tail := rfl
    rw [e, splitAt, ih]
    split
    · rfl
    · cases pieces sep cs <;> rfl

theorem splitAt_ne (sep : Rune) : ∀ s, splitAt sep s ≠ []
  | [] => by simp [splitAt]
  | c :: cs => by
    rw [splitAt]
    split
    · simp
    · split <;> simp

theorem join_splitAt (sep : Rune) : ∀ s, joinWith sep (splitAt sep s) = s
  | [] => rfl
  | c :: cs => by
    have ih := join_splitAt sep cs
    have hne := splitAt_ne sep cs
    rw [splitAt]
    split
    · rename_i h
      cases h2 : splitAt sep cs with
      | nil => exact absurd h2 hne
      | cons a t => rw [h2] at ih; simp [joinWith, ih, h]
    · cases h2 : splitAt sep cs with
      | nil => exact absurd h2 hne
      | cons a t =>
        rw [h2] at ih
        cases t <;> simpa [joinWith] using ih

theorem splitAt_free (sep : Rune) : ∀ s, ∀ w ∈ splitAt sep s, sep ∉ w
  | [], w, h => by simp [splitAt] at h; subst h; simp
  | c :: cs, w, h => by
    have ih := splitAt_free sep cs
    rw [splitAt] at h
    split at h
    · rcases List.mem_cons.1 h with rfl | h
      · simp
      · exact ih w h
    · rename_i hc
      cases h2 : splitAt sep cs with
      | nil => exact absurd h2 (splitAt_ne sep cs)
      | cons a t =>
        rw [h2] at h ih
        rcases List.mem_cons.1 h with rfl | h
        · intro hm
          rcases List.mem_cons.1 hm with rfl | hm
          · exact hc rfl
          · exact ih a (by simp) hm
        · exact ih w (by simp [h])

theorem splitAt_mem (sep : Rune) : ∀ s, ∀ w ∈ splitAt sep s, ∀ c ∈ w, c ∈ s
  | [], w, h, c, hc => by simp [splitAt] at h; subst h; simp at hc
  | d :: cs, w, h, c, hc => by
    have ih := splitAt_mem sep cs
    rw [splitAt] at h
    split at h
    · rcases List.mem_cons.1 h with rfl | h
      · simp at hc
      · exact List.mem_cons_of_mem _ (ih w h c hc)
    · cases h2 : splitAt sep cs with
      | nil => exact absurd h2 (splitAt_ne sep cs)
      | cons a t =>
        rw [h2] at h ih
        rcases List.mem_cons.1 h with rfl | h
        · rcases List.mem_cons.1 hc with rfl | hc
          · simp
          · exact List.mem_cons_of_mem _ (ih a (by simp) c hc)
        · exact List.mem_cons_of_mem _ (ih w (by simp [h]) c hc)

theorem splitAt_append {sep : Rune} : ∀ {w : List Rune} (_ : sep ∉ w) (s : List Rune),
    splitAt sep (w ++ sep :: s) = w :: splitAt sep s
  | [], _, s => by simp [splitAt]
  | c :: w, h, s => by
    have hc : c ≠ sep := fun e => h (by simp [e])
    have := splitAt_append (sep := sep) (w := w) (fun hm => h (List.mem_cons_of_mem _ hm)) s
    rw [List.cons_append, splitAt, if_neg hc, this]

theorem splitAt_single {sep : Rune} : ∀ {w : List Rune} (_ : sep ∉ w), splitAt sep w = [w]
  | [], _ => rfl
  | c :: w, h => by
    have hc : c ≠ sep := fun e => h (by simp [e])
    have := splitAt_single (sep := sep) (w := w) (fun hm => h (List.mem_cons_of_mem _ hm))
    rw [splitAt, if_neg hc, this]

theorem splitAt_join {sep : Rune} : ∀ {ws : List (List Rune)} (_ : ws ≠ []) (_ : ∀ w ∈ ws, sep ∉ w),
    splitAt sep (joinWith sep ws) = ws
  | [], h, _ => absurd rfl h
  | [w], _, h => splitAt_single (h w (by simp))
  | w :: v :: ws, _, h => by
    rw [joinWith, splitAt_append (h w (by simp)), splitAt_join (by simp) (fun x hx => h x (by simp [hx]))]

theorem joinWith_cons (sep : Rune) (w : List Rune) {ws : List (List Rune)} (h : ws ≠ []) :
    joinWith sep (w :: ws) = w ++ sep :: joinWith sep ws := by
  cases ws with
  | nil => exact absurd rfl h
  | cons => rfl

theorem joinWith_append (sep : Rune) : ∀ {a b : List (List Rune)} (_ : a ≠ []) (_ : b ≠ []),
    joinWith sep (a ++ b) = joinWith sep a ++ sep :: joinWith sep b
  | [], _, h, _ => absurd rfl h
  | [w], b, _, hb => by simp [joinWith_cons sep w hb, joinWith]
  | w :: v :: a, b, _, hb => by
    rw [List.cons_append, joinWith_cons sep w (by simp), joinWith_append sep (a := v :: a) (by simp) hb, joinWith]
    simp

theorem joinWith_mem {sep : Rune} : ∀ {ws : List (List Rune)} {c : Rune}, c ∈ joinWith sep ws →
    c = sep ∨ ∃ w ∈ ws, c ∈ w
  | [], c, h => by simp [joinWith] at h
  | [w], c, h => .inr ⟨w, by simp, h⟩
  | w :: v :: ws, c, h => by
    rw [joinWith] at h
    rcases List.mem_append.1 h with h | h
    · exact .inr ⟨w, by simp, h⟩
    · rcases List.mem_cons.1 h with h | h
      · exact .inl h
      · rcases joinWith_mem h with h | ⟨x, hx, hc⟩
        · exact .inl h
        · exact .inr ⟨x, by simp [hx], hc⟩

theorem joinWith_map (f : Rune → Rune) (sep : Rune) : ∀ ws : List (List Rune),
    (joinWith sep ws).map f = joinWith (f sep) (ws.map (List.map f))
  | [] => rfl
  | [w] => rfl
  | w :: v :: ws => by
    have := joinWith_map f sep (v :: ws)
    simp only [List.map_cons] at this
    simp [joinWith, this]

/-- Joining groups that are joined already. -/
theorem joinWith_groups (sep : Rune) : ∀ {G : List (List (List Rune))} (_ : ∀ g ∈ G, g ≠ []),
    joinWith sep (G.map (joinWith sep)) = joinWith sep G.flatten
  | [], _ => rfl
  | [g], _ => by simp [joinWith]
  | g :: k :: G, h => by
    have ih := joinWith_groups sep (G := k :: G) (fun x hx => h x (by simp [hx]))
    have hk : (k :: G).flatten ≠ [] := by
      have := h k (by simp)
      cases k with
      | nil => exact absurd rfl this
      | cons => simp
    rw [List.flatten_cons, joinWith_append sep (h g (by simp)) hk, ← ih]
    rfl

theorem takeWhile_join {g : List (List Rune)} {w : List Rune} (h : g.head? = some w) (hw : 32 ∉ w) :
    (joinWith 32 g).takeWhile (· ≠ 32) = w := by
  have hw' : ∀ (v s : List Rune), 32 ∉ v → (v ++ 32 :: s).takeWhile (· ≠ 32) = v := by
    intro v
    induction v with
    | nil => intro s _; simp
    | cons c v ih =>
      intro s hv
      have hc : c ≠ 32 := fun e => hv (by simp [e])
      have := ih s (fun hm => hv (by simp [hm]))
      rw [List.cons_append, List.takeWhile_cons_of_pos (by simpa using hc), this]
  have hw2 : ∀ (v : List Rune), 32 ∉ v → v.takeWhile (· ≠ 32) = v := by
    intro v hv
    have := hw' v [] hv
    induction v with
    | nil => rfl
    | cons c v ih =>
      have hc : c ≠ 32 := fun e => hv (by simp [e])
      have hv' : 32 ∉ v := fun hm => hv (by simp [hm])
      have := ih hv' (hw' v [] hv')
      rw [List.takeWhile_cons_of_pos (by simpa using hc), this]
  match g, h with
  | [v], h => cases h; exact hw2 _ hw
  | v :: u :: g, h => cases h; rw [joinWith]; exact hw' _ _ hw

/-! ### The loop -/

/-- Each group but the last is full: the first word of the next one does not fit. -/
def Full (width : Nat) : List (List (List Rune)) → Prop
  | a :: b :: G => (∀ x, b.head? = some x → width < (joinWith 32 a).length + 1 + x.length) ∧ Full width (b :: G)
  | _ => True

theorem index_ok {w rest : List (List Rune)} {x : List Rune} {i : Nat} (h : w.drop i = x :: rest) :
    (i : Int) < w.length ∧ wrapLoop.index w (i : Int) = .ok x ∧ w.drop (i + 1) = rest := by
  have hi : i < w.length := by
    rcases Nat.lt_or_ge i w.length with h1 | h1
    · exact h1
    · rw [List.drop_eq_nil_of_le h1] at h; cases h
  rw [List.drop_eq_getElem_cons hi] at h
  injection h with h1 h2
  refine ⟨by omega, ?_, h2⟩
  simp [wrapLoop.index, hi, h1]

/-- When no word is longer than a line, the loop makes groups of the words. -/
theorem wrapLoop_groups (w : List (List Rune)) : ∀ (fuel i : Nat) (ll l rest : List (List Rune)),
    w.drop i = rest → 2 * rest.length + (if ll = [] then 0 else 1) < fuel →
    (ll ≠ [] → (joinWith 32 ll).length < wrapWidth) → (∀ x ∈ rest, x.length ≤ wrapWidth) →
    ∃ G : List (List (List Rune)), wrapLoop w fuel i ll l = .ok (l ++ G.map (joinWith 32)) ∧ G.flatten = ll ++ rest ∧
      (∀ g ∈ G, g ≠ [] ∧ (joinWith 32 g).length ≤ wrapWidth) ∧ Full wrapWidth G
  | 0, _, _, _, _, _, h, _, _ => absurd h (by omega)
  | fuel + 1, i, ll, l, [], hd, _, hll, _ => by
    have hi : ¬ ((i : Int) < w.length) := by
      have := List.drop_eq_nil_iff.1 hd
      omega
    rw [wrapLoop, if_neg hi]
    cases ll with
    | nil => exact ⟨[], by simp, rfl, by simp, trivial⟩
    | cons a t =>
      refine ⟨[a :: t], by simp, by simp, ?_, trivial⟩
      intro g hg
      simp only [List.mem_singleton] at hg
      subst hg
      exact ⟨by simp, Nat.le_of_lt (hll (by simp))⟩
  | fuel + 1, i, ll, l, x :: rest, hd, hf, hll, hrest => by
    obtain ⟨hi, hx, hd'⟩ := index_ok hd
    have hxw := hrest x (by simp)
    have hrest' : ∀ y ∈ rest, y.length ≤ wrapWidth := fun y hy => hrest y (by simp [hy])
    simp only [List.length_cons] at hf
    rw [wrapLoop, if_pos hi, hx]
    simp only [Res.bind_ok]
    by_cases h1 : (joinWith 32 (ll ++ [x])).length < wrapWidth
    · rw [if_pos h1]
      obtain ⟨G, e, e2, h3, h4⟩ := wrapLoop_groups w fuel (i + 1) (ll ++ [x]) l rest hd'
        (by simp; split at hf <;> omega) (fun _ => h1) hrest'
      exact ⟨G, e, by rw [e2]; simp, h3, h4⟩
    · rw [if_neg h1]
      by_cases h2 : (joinWith 32 (ll ++ [x])).length > wrapWidth
      · have hne : ll ≠ [] := by
          rintro rfl
          simp only [List.nil_append, joinWith] at h2
          omega
        have hlen : (joinWith 32 (ll ++ [x])).length = (joinWith 32 ll).length + 1 + x.length := by
          rw [joinWith_append 32 hne (by simp)]
          simp [joinWith]
          omega
        simp only [if_pos h2, List.dropLast_concat]
        rw [if_neg hne] at hf
        rw [if_neg (by simpa using hne)]
        obtain ⟨G, e, e2, h3, h4⟩ := wrapLoop_groups w fuel i [] (l ++ [joinWith 32 ll]) (x :: rest) hd
          (by simp; omega) (fun h => absurd rfl h) hrest
        refine ⟨ll :: G, ?_, by rw [List.flatten_cons, e2]; simp, ?_, ?_⟩
        · rw [show (i : Int) - 1 + 1 = i by omega, e]; simp
        · intro g hg
          rcases List.mem_cons.1 hg with rfl | hg
          · exact ⟨hne, Nat.le_of_lt (hll hne)⟩
          · exact h3 g hg
        · match G, e2, h3, h4 with
          | [], e2, _, _ => simp at e2
          | b :: G, e2, h3, h4 =>
            refine ⟨?_, h4⟩
            intro y hy
            match b, hy with
            | y' :: b, hy =>
              cases hy
              simp only [List.flatten_cons, List.cons_append, List.nil_append, List.cons.injEq] at e2
              rw [e2.1, ← hlen]
              exact h2
      · simp only [if_neg h2]
        rw [if_neg (by simp)]
        obtain ⟨G, e, e2, h3, h4⟩ := wrapLoop_groups w fuel (i + 1) [] (l ++ [joinWith 32 (ll ++ [x])]) rest hd'
          (by simp; split at hf <;> omega) (fun h => absurd rfl h) hrest'
        refine ⟨(ll ++ [x]) :: G, ?_, by rw [List.flatten_cons, e2]; simp, ?_, ?_⟩
        · have := e
          simp only [Int.natCast_add, Int.cast_ofNat_Int] at this
          rw [this]; simp
        · intro g hg
          rcases List.mem_cons.1 hg with rfl | hg
          · exact ⟨by simp, by omega⟩
          · exact h3 g hg
        · match G, h4 with
          | [], _ => trivial
          | b :: G, h4 => exact ⟨fun y _ => by omega, h4⟩

/-- The loop does not panic when the first word fits in a line. -/
theorem wrapLoop_ok (w : List (List Rune)) (h0 : ∀ x, w.head? = some x → x.length ≤ wrapWidth) :
    ∀ (fuel i : Nat) (ll l rest : List (List Rune)),
    w.drop i = rest → 2 * rest.length + (if ll = [] then 0 else 1) < fuel → (ll ≠ [] → 0 < i) →
    ∃ r, wrapLoop w fuel i ll l = .ok r
  | 0, _, _, _, _, _, h, _ => absurd h (by omega)
  | fuel + 1, i, ll, l, [], hd, _, _ => by
    have hi : ¬ ((i : Int) < w.length) := by
      have := List.drop_eq_nil_iff.1 hd
      omega
    rw [wrapLoop, if_neg hi]
    exact ⟨_, rfl⟩
  | fuel + 1, i, ll, l, x :: rest, hd, hf, hll => by
    obtain ⟨hi, hx, hd'⟩ := index_ok hd
    simp only [List.length_cons] at hf
    rw [wrapLoop, if_pos hi, hx]
    simp only [Res.bind_ok]
    by_cases h1 : (joinWith 32 (ll ++ [x])).length < wrapWidth
    · rw [if_pos h1]
      exact wrapLoop_ok w h0 fuel (i + 1) (ll ++ [x]) l rest hd' (by simp; split at hf <;> omega) (by omega)
    · rw [if_neg h1]
      by_cases h2 : (joinWith 32 (ll ++ [x])).length > wrapWidth
      · simp only [if_pos h2, List.dropLast_concat]
        by_cases hne : ll = []
        · subst hne
          have hpos : 0 < i := by
            rcases Nat.eq_zero_or_pos i with rfl | h
            · rw [List.drop_zero] at hd
              have := h0 x (by simp [hd])
              simp only [List.nil_append, joinWith] at h2
              omega
            · exact h
          rw [if_pos (show ([] : List (List Rune)).length = 0 from rfl), show ((i : Int) - 1) = ((i - 1 : Nat) : Int) by omega]
          have hlt : i - 1 < w.length := by omega
          have : wrapLoop.index w ((i - 1 : Nat) : Int) = .ok w[i - 1] := (index_ok (List.drop_eq_getElem_cons hlt)).2.1
          rw [this]
          simp only [Res.bind_ok]
          have := wrapLoop_ok w h0 fuel (i + 1) [] (l ++ [w[i - 1]]) rest hd' (by simp at hf ⊢; omega) (by simp)
          rw [show (((i - 1 : Nat) : Int) + 1 + 1) = ((i + 1 : Nat) : Int) by omega]
          exact this
        · rw [if_neg hne] at hf
          rw [if_neg (by simpa using hne), show (i : Int) - 1 + 1 = i by omega]
          exact wrapLoop_ok w h0 fuel i [] (l ++ [joinWith 32 ll]) (x :: rest) hd (by simp; omega) (by simp)
      · simp only [if_neg h2]
        rw [if_neg (by simp)]
        exact wrapLoop_ok w h0 fuel (i + 1) [] (l ++ [joinWith 32 (ll ++ [x])]) rest hd'
          (by simp; split at hf <;> omega) (by simp)

/-- It panics when the first word is longer than a line. -/
theorem wrapLoop_panic {w : List (List Rune)} {x : List Rune} (h : w.head? = some x) (hx : wrapWidth < x.length)
    (fuel : Nat) : wrapLoop w (fuel + 1) 0 [] [] = .panic := by
  match w, h with
  | y :: w, h =>
    cases h
    have h1 : ¬ (joinWith 32 [x]).length < wrapWidth := by simp [joinWith]; omega
    have h2 : (joinWith 32 [x]).length > wrapWidth := by simpa [joinWith] using hx
    rw [wrapLoop, if_pos (by simp)]
    simp [wrapLoop.index, if_neg h1, if_pos h2]

theorem Full.get {width : Nat} : ∀ {G : List (List (List Rune))} {i : Nat} {a b : List (List Rune)} {x : List Rune},
    Full width G → G[i]? = some a → G[i + 1]? = some b → b.head? = some x →
    width < (joinWith 32 a).length + 1 + x.length
  | [], i, _, _, _, _, h, _, _ => by simp at h
  | [_], 0, _, _, _, _, _, h, _ => by simp at h
  | [_], i + 1, _, _, _, _, h, _, _ => by simp at h
  | g :: k :: G, 0, a, b, x, hf, h1, h2, hx => by
    simp at h1 h2; subst h1 h2; exact hf.1 x hx
  | g :: k :: G, i + 1, a, b, x, hf, h1, h2, hx => by
    simp only [List.getElem?_cons_succ] at h1 h2
    exact Full.get hf.2 h1 h2 hx

theorem replace_eq (s : List Rune) : replaceNewlines s = s.map blank := rfl

theorem wrapLines_wrapped {text : List Rune} (h : ∀ w ∈ words text, w.length ≤ wrapWidth) :
    ∃ out, wrapLines text = .ok out ∧ Wrapped wrapWidth text out := by
  have hw : splitAt 32 (replaceNewlines text) = words text := by rw [splitAt_eq, replace_eq]; rfl
  have hne := splitAt_ne 32 (replaceNewlines text)
  have hno : ∀ c ∈ replaceNewlines text, c ≠ 10 := by
    intro c hc
    simp only [replaceNewlines, List.mem_map] at hc
    obtain ⟨d, -, rfl⟩ := hc
    intro e
    split at e
    · cases e
    · contradiction
  have hjoin := join_splitAt 32 (replaceNewlines text)
  have hfree := splitAt_free 32 (replaceNewlines text)
  have hmem := splitAt_mem 32 (replaceNewlines text)
  obtain ⟨G, e, e2, h3, h4⟩ := wrapLoop_groups (splitAt 32 (replaceNewlines text))
    (2 * (splitAt 32 (replaceNewlines text)).length + 1) 0 [] [] _ rfl (by simp) (fun h => absurd rfl h)
    (by rw [hw]; exact h)
  rw [List.nil_append, List.drop_zero] at e2
  rw [List.nil_append] at e
  have hG : G.map (joinWith 32) ≠ [] := by
    intro h0
    rw [List.map_eq_nil_iff.1 h0] at e2
    exact hne e2.symm
  have hword : ∀ g ∈ G, ∀ w ∈ g, w ∈ splitAt 32 (replaceNewlines text) := by
    intro g hg w hwg
    rw [← e2]
    exact List.mem_flatten.2 ⟨g, hg, hwg⟩
  have hnl : ∀ x ∈ G.map (joinWith 32), 10 ∉ x := by
    intro x hx h10
    obtain ⟨g, hg, rfl⟩ := List.mem_map.1 hx
    rcases joinWith_mem h10 with h | ⟨w, hwg, hc⟩
    · cases h
    · exact hno 10 (hmem w (hword g hg w hwg) 10 hc) rfl
  have hlines : lines (joinWith 10 (G.map (joinWith 32))) = G.map (joinWith 32) := by
    rw [lines, ← splitAt_eq, splitAt_join hG hnl]
  refine ⟨joinWith 10 (G.map (joinWith 32)), ?_, ?_, ?_, ?_⟩
  · unfold wrapLines
    have := e
    simp only [Int.cast_ofNat_Int] at this
    simp only [this, Res.bind_ok]
  · rw [joinWith_map]
    have : (G.map (joinWith 32)).map (List.map blank) = G.map (joinWith 32) := by
      rw [List.map_congr_left (g := id)]
      · simp
      · intro x hx
        rw [List.map_congr_left (g := id)]
        · simp
        · intro c hc
          have : c ≠ 10 := fun h => hnl x hx (h ▸ hc)
          simp [blank, this]
    rw [this, show blank 10 = 32 from rfl, joinWith_groups 32 (fun g hg => (h3 g hg).1), e2, hjoin, replace_eq]
  · intro line hl
    rw [hlines] at hl
    obtain ⟨g, hg, rfl⟩ := List.mem_map.1 hl
    exact (h3 g hg).2
  · intro i a b ha hb
    rw [hlines] at ha hb
    rw [List.getElem?_map] at ha hb
    cases h1 : G[i]? with
    | none => rw [h1] at ha; cases ha
    | some g =>
      cases h2 : G[i + 1]? with
      | none => rw [h2] at hb; cases hb
      | some k =>
        rw [h1] at ha; rw [h2] at hb
        cases ha; cases hb
        have hk := List.mem_of_getElem? h2
        cases h5 : k with
        | nil => exact absurd h5 (h3 k hk).1
        | cons x t =>
          rw [← h5, takeWhile_join (w := x) (by simp [h5]) (hfree x (hword k hk x (by simp [h5])))]
          exact h4.get h1 h2 (by simp [h5])

theorem wrapLines_panic (text : List Rune) :
    wrapLines text = .panic ↔ ∃ x, (words text).head? = some x ∧ wrapWidth < x.length := by
  have hw : splitAt 32 (replaceNewlines text) = words text := by rw [splitAt_eq, replace_eq]; rfl
  constructor
  · intro h
    apply Classical.byContradiction
    intro hn
    obtain ⟨r, hr⟩ := wrapLoop_ok (words text) (fun x hx => Nat.le_of_not_lt fun hlt => hn ⟨x, hx, hlt⟩)
      (2 * (words text).length + 1) 0 [] [] _ rfl (by simp) (by simp)
    simp only [Int.cast_ofNat_Int] at hr
    simp [wrapLines, hw, hr] at h
  · rintro ⟨x, hx, hlt⟩
    simp [wrapLines, hw, wrapLoop_panic hx hlt]

end Treerack
