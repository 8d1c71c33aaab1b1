import Verif.Proofs.Begins
import Verif.Proofs.SpacedCalls

/-
Beginnings can be completed to texts, when every definition derives something.
-/

namespace Treerack.Spec

section
variable {N : Type} {G : Grammar N} {u : List Rune}

mutual

theorem Derives.bounds : ∀ {n : N} {i j : Nat}, Derives G u n i j → i ≤ j ∧ (i < j → j ≤ u.length)
  | _, _, _, .char _ _ h3 _ => ⟨by omega, fun _ => (List.getElem?_eq_some_iff.1 h3).1⟩
  | _, _, _, .choice _ _ _ h => h.bounds
  | _, _, _, .seq _ _ h => h.bounds

theorem DerivesItems.bounds : ∀ {its : List (N × Int × Int)} {i j : Nat}, DerivesItems G u its i j → i ≤ j ∧ (i < j → j ≤ u.length)
  | _, _, _, .nil => ⟨Nat.le_refl _, by omega⟩
  | _, _, _, .cons h1 _ h3 => by
    have := h1.bounds
    have := h3.bounds
    omega

theorem DerivesTimes.bounds : ∀ {n : N} {k i j : Nat}, DerivesTimes G u n k i j → i ≤ j ∧ (i < j → j ≤ u.length)
  | _, _, _, _, .zero => ⟨Nat.le_refl _, by omega⟩
  | _, _, _, _, .succ h1 h2 => by
    have := h1.bounds
    have := h2.bounds
    omega

end

theorem Begins.bounds {n : N} {i o : Nat} (h : Begins G u n i o) : i ≤ o ∧ (i < o → o ≤ u.length) := by
  induction h with
  | here => exact ⟨Nat.le_refl _, by omega⟩
  | done h => exact h.bounds
  | choice _ _ _ _ ih => exact ih
  | seq _ _ _ h4 h5 _ _ ih =>
    have := h4.bounds
    have := h5.bounds
    omega

mutual

/-- The same text at another position. -/
theorem Derives.move : ∀ {n : N} {i j : Nat}, Derives G u n i j → ∀ {v : List Rune} {i' j' : Nat}, j' + i = i' + j →
    (∀ k, i + k < j → v[i' + k]? = u[i + k]?) → Derives G v n i' j'
  | _, i, _, .char h1 h2 h3 h4, v, i', j', e, h => by
    obtain rfl : j' = i' + 1 := by omega
    refine .char h1 h2 ?_ h4
    have := h 0 (by omega)
    simpa [h3] using this
  | _, _, _, .choice h1 h2 h3 h4, _, _, _, e, h => .choice h1 h2 h3 (h4.move e h)
  | _, _, _, .seq h1 h2 h3, _, _, _, e, h => .seq h1 h2 (h3.move e h)

theorem DerivesItems.move : ∀ {its : List (N × Int × Int)} {i j : Nat}, DerivesItems G u its i j → ∀ {v : List Rune} {i' j' : Nat},
    j' + i = i' + j → (∀ k, i + k < j → v[i' + k]? = u[i + k]?) → DerivesItems G v its i' j'
  | _, _, _, .nil, _, _, _, e, _ => by
    obtain rfl := Nat.add_right_cancel e
    exact .nil
  | _, i, _, .cons (m := m) h1 h2 h3, v, i', j', e, h => by
    have b1 := h1.bounds
    have b2 := h3.bounds
    refine .cons (h1.move (j' := i' + (m - i)) (by omega) fun k hk => h k (by omega)) h2 (h3.move (by omega) fun k hk => ?_)
    have := h (m - i + k) (by omega)
    rw [show i + (m - i + k) = m + k by omega, show i' + (m - i + k) = i' + (m - i) + k by omega] at this
    exact this

theorem DerivesTimes.move : ∀ {n : N} {c i j : Nat}, DerivesTimes G u n c i j → ∀ {v : List Rune} {i' j' : Nat}, j' + i = i' + j →
    (∀ k, i + k < j → v[i' + k]? = u[i + k]?) → DerivesTimes G v n c i' j'
  | _, _, _, _, .zero, _, _, _, e, _ => by
    obtain rfl := Nat.add_right_cancel e
    exact .zero
  | _, _, i, _, .succ (m := m) h1 h2, v, i', j', e, h => by
    have b1 := h1.bounds
    have b2 := h2.bounds
    refine .succ (h1.move (j' := i' + (m - i)) (by omega) fun k hk => h k (by omega)) (h2.move (by omega) fun k hk => ?_)
    have := h (m - i + k) (by omega)
    rw [show i + (m - i + k) = m + k by omega, show i' + (m - i + k) = i' + (m - i) + k by omega] at this
    exact this

end

theorem Derives.lives {n : N} {i j : Nat} (h : Derives G u n i j) : Lives G n := by
  have hb := h.bounds
  by_cases he : i = j
  · subst he
    exact ⟨[], h.move (by simp) fun k hk => by omega⟩
  · refine ⟨(u.drop i).take (j - i), h.move (i' := 0) ?_ ?_⟩
    · simp only [List.length_take, List.length_drop]; omega
    · intro k hk
      rw [List.getElem?_take, if_pos (by omega), List.getElem?_drop]
      congr 1; omega

theorem get_left {v w : List Rune} {k : Nat} (h : k < v.length) : (v ++ w)[k]? = v[k]? := List.getElem?_append_left h

theorem get_right {v w : List Rune} {k l : Nat} (h : l = v.length) : (v ++ w)[l + k]? = w[k]? := by
  subst h
  rw [List.getElem?_append_right (by omega)]
  congr 1; omega

theorem Derives.more {n : N} {i j : Nat} (h : Derives G u n i j) (hj : j ≤ u.length) (w : List Rune) : Derives G (u ++ w) n i j :=
  h.move (by omega) fun _ hk => get_left (by omega)

theorem DerivesItems.more {its : List (N × Int × Int)} {i j : Nat} (h : DerivesItems G u its i j) (hj : j ≤ u.length) (w : List Rune) :
    DerivesItems G (u ++ w) its i j := h.move (by omega) fun _ hk => get_left (by omega)

theorem DerivesTimes.more {n : N} {c i j : Nat} (h : DerivesTimes G u n c i j) (hj : j ≤ u.length) (w : List Rune) :
    DerivesTimes G (u ++ w) n c i j := h.move (by omega) fun _ hk => get_left (by omega)

/-- Further occurrences. -/
theorem DerivesTimes.fill {n : N} (hn : Lives G n) {c i : Nat} : ∀ (k : Nat) {u : List Rune}, DerivesTimes G u n c i u.length →
    ∃ w, DerivesTimes G (u ++ w) n (c + k) i (u ++ w).length
  | 0, u, h => ⟨[], by simpa using h⟩
  | k + 1, u, h => by
    obtain ⟨w, h1⟩ := DerivesTimes.fill hn k h
    obtain ⟨t, ht⟩ := hn
    refine ⟨w ++ t, ?_⟩
    rw [← List.append_assoc]
    refine .succ (h1.more (Nat.le_refl _) t) (ht.move (by simp; omega) fun j _ => ?_)
    rw [get_right rfl]
    simp

/-- A number of occurrences that is allowed. -/
theorem inRange_some (mn mx : Int) (k : Nat) (hk : 0 < mx → (k : Int) ≤ mx) : ∃ m, k ≤ m ∧ InRange mn mx m := by
  unfold InRange
  by_cases h : 0 < mx ∧ mx < mn
  · exact ⟨mx.toNat, by have := hk h.1; omega, Or.inr ⟨h.1, h.2, by omega⟩⟩
  · exact ⟨max k mn.toNat, by omega, Or.inl ⟨by omega, fun h' => by have := hk h'; omega⟩⟩

/-- Further items. -/
theorem DerivesItems.fill : ∀ (its : List (N × Int × Int)), (∀ x ∈ its, Lives G x.1) → ∀ (u : List Rune),
    ∃ w, DerivesItems G (u ++ w) its u.length (u ++ w).length
  | [], _, u => ⟨[], by simpa using .nil⟩
  | (x, mn, mx) :: its, h, u => by
    obtain ⟨m, -, hm⟩ := inRange_some mn mx 0 (by omega)
    obtain ⟨w, hw⟩ := DerivesTimes.fill (h (x, mn, mx) (by simp)) m (u := u) (DerivesTimes.zero (G := G) (n := x) (i := u.length))
    obtain ⟨w', hw'⟩ := DerivesItems.fill its (fun y hy => h y (by simp [hy])) (u ++ w)
    refine ⟨w ++ w', ?_⟩
    rw [← List.append_assoc]
    rw [Nat.zero_add] at hw
    exact .cons (hw.more (Nat.le_refl _) w') hm hw'

theorem Lives.seq {n : N} {d : GDef N} {items : List (N × Int × Int)} (h1 : G n = some d) (h2 : d.expr = .seq items)
    (h : ∀ x ∈ items, Lives G x.1) : Lives G n := by
  obtain ⟨w, hw⟩ := DerivesItems.fill items h []
  exact ⟨w, .seq h1 h2 (by simpa using hw)⟩

theorem Lives.choice {n : N} {d : GDef N} {os : List N} {o : N} (h1 : G n = some d) (h2 : d.expr = .choice os)
    (h3 : o ∈ os) (h : Lives G o) : Lives G n := by
  obtain ⟨w, hw⟩ := h
  exact ⟨w, .choice h1 h2 h3 hw⟩

/-- A beginning can be completed. -/
theorem Begins.completes {R : N → Prop} (hlive : ∀ n, R n → Lives G n) (hrefs : ∀ n d, R n → G n = some d → ∀ x ∈ d.expr.refs, R x)
    {input : List Rune} {n : N} {i o : Nat} (h : Begins G input n i o) :
    R n → o ≤ input.length → ∃ w, Derives G (input.take o ++ w) n i (o + w.length) := by
  have htk : ∀ {o : Nat}, o ≤ input.length → (input.take o).length = o := fun h => by simp; omega
  have hget : ∀ {o : Nat} (w : List Rune) {k : Nat}, o ≤ input.length → k < o → (input.take o ++ w)[k]? = input[k]? := by
    intro o w k ho hk
    rw [get_left (by rw [htk ho]; exact hk), List.getElem?_take, if_pos hk]
  induction h with
  | @here n i =>
    intro hR ho
    obtain ⟨w, hw⟩ := hlive n hR
    refine ⟨w, hw.move (by omega) fun k hk => ?_⟩
    rw [get_right (htk ho).symm]
    simp
  | @done n i o h =>
    intro hR ho
    exact ⟨[], h.move (by simp; omega) fun k hk => hget [] ho hk⟩
  | choice h1 h2 h3 _ ih =>
    intro hR ho
    obtain ⟨w, hw⟩ := ih (hrefs _ _ hR h1 _ (by rw [h2]; exact h3)) ho
    exact ⟨w, .choice h1 h2 h3 hw⟩
  | @seq n d items before after x mn mx k i a b o h1 h2 h3 h4 h5 h6 h7 ih =>
    intro hR ho
    have hall : ∀ y ∈ items, R y.1 := fun y hy => hrefs _ _ hR h1 _ (by rw [h2]; exact List.mem_map.2 ⟨y, hy, rfl⟩)
    have hRx : R x := hall (x, mn, mx) (by simp [h3])
    obtain ⟨w1, hw1⟩ := ih hRx ho
    have b4 := h4.bounds
    have b5 := h5.bounds
    have b7 := h7.bounds
    have hl : (input.take o ++ w1).length = o + w1.length := by rw [List.length_append, htk ho]
    have h5' : DerivesTimes G (input.take o ++ w1) x k a b := h5.move (by omega) fun j hj => hget w1 ho (by omega)
    have h8 := DerivesTimes.succ h5' hw1
    rw [← hl] at h8
    obtain ⟨m, hm1, hm2⟩ := inRange_some mn mx (k + 1) (by omega)
    obtain ⟨w2, hw2⟩ := DerivesTimes.fill (hlive x hRx) (m - (k + 1)) h8
    rw [show k + 1 + (m - (k + 1)) = m by omega] at hw2
    obtain ⟨w3, hw3⟩ := DerivesItems.fill after (fun y hy => hlive _ (hall y (by simp [h3, hy]))) (input.take o ++ w1 ++ w2)
    have hx := DerivesItems.cons (hw2.more (Nat.le_refl _) w3) hm2 hw3
    refine ⟨w1 ++ (w2 ++ w3), .seq h1 h2 ?_⟩
    have he : input.take o ++ (w1 ++ (w2 ++ w3)) = input.take o ++ w1 ++ w2 ++ w3 := by simp
    have hlen : o + (w1 ++ (w2 ++ w3)).length = (input.take o ++ w1 ++ w2 ++ w3).length := by
      simp only [List.length_append, htk ho]; omega
    rw [hlen, he, h3]
    have h4' : DerivesItems G (input.take o ++ w1 ++ w2 ++ w3) before i a := by
      rw [← he]
      exact h4.move (by omega) fun j hj => hget _ ho (by omega)
    clear h3 h4 hall
    revert h4'
    generalize input.take o ++ w1 ++ w2 ++ w3 = v at hx
    clear b4
    induction before generalizing i with
    | nil => intro h; cases h; exact hx
    | cons y ys ihy =>
      intro h
      cases h with
      | cons g1 g2 g3 => exact .cons g1 g2 (ihy g3)

end
/-! ### Other names of the aliases -/

section
variable {N : Type} {G G' : Grammar N} {input : List Rune}

mutual

theorem Relabeled.derives (R : Relabeled G G') : ∀ {n : N} {i j : Nat}, Derives G input n i j → Derives G' input n i j
  | _, _, _, .char h1 h2 h3 h4 => by
    obtain ⟨d, e1, e2⟩ := R.to h1
    exact .char e1 (by rw [e2.expr, h2]) h3 h4
  | _, _, _, .choice h1 h2 h3 h4 => by
    obtain ⟨d, e1, e2⟩ := R.to h1
    exact .choice e1 (by rw [e2.expr, h2]) h3 (R.derives h4)
  | _, _, _, .seq h1 h2 h3 => by
    obtain ⟨d, e1, e2⟩ := R.to h1
    exact .seq e1 (by rw [e2.expr, h2]) (R.derivesItems h3)

theorem Relabeled.derivesItems (R : Relabeled G G') : ∀ {its : List (N × Int × Int)} {i j : Nat}, DerivesItems G input its i j →
    DerivesItems G' input its i j
  | _, _, _, .nil => .nil
  | _, _, _, .cons h1 h2 h3 => .cons (R.derivesTimes h1) h2 (R.derivesItems h3)

theorem Relabeled.derivesTimes (R : Relabeled G G') : ∀ {n : N} {k i j : Nat}, DerivesTimes G input n k i j →
    DerivesTimes G' input n k i j
  | _, _, _, _, .zero => .zero
  | _, _, _, _, .succ h1 h2 => .succ (R.derivesTimes h1) (R.derives h2)

end

theorem Relabeled.begins (R : Relabeled G G') {n : N} {i o : Nat} (h : Begins G input n i o) : Begins G' input n i o := by
  induction h with
  | here => exact .here
  | done h => exact .done (R.derives h)
  | choice h1 h2 h3 _ ih =>
    obtain ⟨d, e1, e2⟩ := R.to h1
    exact .choice e1 (by rw [e2.expr, h2]) h3 ih
  | seq h1 h2 h3 h4 h5 h6 _ ih =>
    obtain ⟨d, e1, e2⟩ := R.to h1
    exact .seq e1 (by rw [e2.expr, h2]) h3 (R.derivesItems h4) (R.derivesTimes h5) h6 ih

end

end Treerack.Spec

namespace Treerack
open Spec

/-! ### The parsers of a syntax -/

section
variable {cs : List Call} {s s' : Syntax}

theorem plain_lives {root : Ptr} (P : PlainParsers cs s' root) (hlive : ∀ n d, grammarOf cs n = some d → Lives (grammarOf cs) n)
    {p : Ptr} (hp : Reach s'.env root p) : Lives s'.env.grammar p := by
  obtain ⟨d, hd⟩ := P.linked.closed.def_ hp
  obtain ⟨t, ht⟩ := hlive _ _ (P.name hp hd)
  exact ⟨t, P.morphism.derives_inv ht p hp rfl⟩

/-- Only the definitions of calls are not characters. -/
theorem grammar_call {n : Name} {d : GDef Name} (h : grammarOf cs n = some d) :
    (∃ c ∈ cs, c.name = n) ∨ ∃ neg chars ranges, d.expr = .char neg chars ranges := by
  obtain ⟨c, hc, hx⟩ := grammarOf_mem h
  have key : (n, d).1 = c.name ∨ ∃ neg chars ranges, (n, d).2.expr = .char neg chars ranges := by
    cases c with
    | anyChar m _ =>
      simp only [Call.defs, List.mem_cons, List.not_mem_nil, or_false] at hx
      rcases hx with hx | hx <;> rw [hx]
      · exact Or.inr ⟨_, _, _, rfl⟩
      · exact Or.inl rfl
    | class_ m _ neg chars ranges =>
      simp only [Call.defs, List.mem_cons, List.not_mem_nil, or_false] at hx
      rcases hx with hx | hx <;> rw [hx]
      · exact Or.inr ⟨_, _, _, rfl⟩
      · exact Or.inl rfl
    | charSequence m _ chars =>
      simp only [Call.defs, List.mem_append, List.mem_map, List.mem_cons, List.not_mem_nil, or_false] at hx
      rcases hx with ⟨x, -, hx⟩ | hx
      · rw [← hx]; exact Or.inr ⟨_, _, _, rfl⟩
      · rw [hx]; exact Or.inl rfl
    | sequence m _ items =>
      simp only [Call.defs, List.mem_cons, List.not_mem_nil, or_false] at hx
      rw [hx]; exact Or.inl rfl
    | choice m _ os =>
      simp only [Call.defs, List.mem_cons, List.not_mem_nil, or_false] at hx
      rw [hx]; exact Or.inl rfl
  rcases key with h | h
  · exact Or.inl ⟨c, hc, h.symm⟩
  · exact Or.inr h

theorem seq_map {d : PDef} {f : Ptr → Part Name} {its : List (Part Name × Int × Int)} (h : d.kind.expr.map f = .seq its) :
    ∃ items, d.kind.expr = .seq items ∧ its = items.map fun x => (f x.1, x.2.1, x.2.2) := by
  cases hk : d.kind with
  | char => rw [hk] at h; simp [PKind.expr, Expr.map] at h
  | choice => rw [hk] at h; simp [PKind.expr, Expr.map] at h
  | seq is rs ac =>
    rw [hk] at h
    simp only [PKind.expr, Expr.map, Expr.seq.injEq] at h
    exact ⟨_, rfl, h.symm⟩

theorem ws_lives {root : Ptr} {f : Ptr → Part Name} (W : WsParsers cs s' root f) (hws : ∃ c ∈ cs, c.commit.whitespace = true)
    (hlive : ∀ n d, grammarOf cs n = some d → Lives (grammarOf cs) n) {p : Ptr} (hp : Reach s'.env root p) :
    Lives s'.env.grammar p := by
  have U := W.understood
  have given : ∀ {p : Ptr} {n : Name}, Reach s'.env root p → f p = .given n → Lives s'.env.grammar p := by
    intro p n hp hfp
    obtain ⟨d, hd⟩ := U.linked.closed.def_ hp
    obtain ⟨gd, g1, g2⟩ := W.expr hp hd
    rw [hfp] at g1
    simp only [spaced, Option.map_eq_some_iff] at g1
    obtain ⟨g, g1, g3⟩ := g1
    obtain ⟨t, ht⟩ := hlive n g g1
    have hn : d.name = n := by
      rw [← nameAt_env hd, ← W.named hp, hfp]; rfl
    rcases Classical.em (∃ c ∈ cs, c.name = n) with hc | hc
    · exact ⟨t, (U.derives p d t 0 _ hp hd (by rw [hn]; exact hc)).2 (by rw [hn]; exact derives_noWs ht)⟩
    · rcases grammar_call g1 with hc' | ⟨neg, chars, ranges, he⟩
      · exact absurd hc' hc
      · have hroot : n ≠ (wgrammarOf cs).root := by
          rintro rfl
          obtain ⟨c, h1, h2⟩ := rootOf_call W.rootName
          exact hc ⟨c, h1, h2⟩
        rw [if_neg hroot] at g3
        have hx : d.kind.expr.map f = .char neg chars ranges := by
          rw [← g2, ← g3]
          simp only [he]
          rfl
        generalize ht' : t.length = l at ht
        cases ht with
        | choice k1 k2 => have := g1.symm.trans k1; cases this; rw [he] at k2; cases k2
        | seq k1 k2 => have := g1.symm.trans k1; cases this; rw [he] at k2; cases k2
        | char k1 k2 k3 k4 =>
          have := g1.symm.trans k1
          cases this
          rw [he] at k2
          cases k2
          have hx' : d.kind.expr = .char neg chars ranges := by
            cases hk : d.kind <;> rw [hk] at hx <;> simp [PKind.expr, Expr.map] at hx ⊢
            exact hx
          exact ⟨t, by rw [ht']; exact .char (Env.grammar_some hd) hx' k3 k4⟩
  have item : ∀ {p : Ptr} {d : PDef} {items : List (Ptr × Int × Int)}, Reach s'.env root p → s'.env.defs[p]? = some d →
      d.kind.expr = .seq items → ∀ x ∈ items, Reach s'.env root x.1 := fun hp hd he x hx =>
    Reach.item hp (Env.grammar_some hd) he hx
  have space : ∀ {p : Ptr}, Reach s'.env root p → f p = .space → Lives s'.env.grammar p := by
    intro p hp hfp
    obtain ⟨d, hd⟩ := U.linked.closed.def_ hp
    obtain ⟨gd, g1, g2⟩ := W.expr hp hd
    rw [hfp] at g1
    simp only [spaced, Option.some.injEq] at g1
    subst g1
    simp only [hidden] at g2
    cases hk : d.kind with
    | char => rw [hk] at g2; simp [PKind.expr, Expr.map] at g2
    | seq => rw [hk] at g2; simp [PKind.expr, Expr.map] at g2
    | choice os =>
      rw [hk] at g2
      simp only [PKind.expr, Expr.map, Expr.choice.injEq] at g2
      obtain ⟨c, hc, hcw⟩ := hws
      have hm : Part.given c.name ∈ (wgrammarOf cs).ws.map Part.given :=
        List.mem_map.2 ⟨_, List.mem_map.2 ⟨c, List.mem_filter.2 ⟨hc, hcw⟩, rfl⟩, rfl⟩
      rw [g2] at hm
      obtain ⟨o, ho, hfo⟩ := List.mem_map.1 hm
      exact Lives.choice (Env.grammar_some hd) (by simp only [hk]; rfl) ho
        (given (.child hp hd (by rw [hk]; exact ho)) hfo)
  have rest : ∀ {p : Ptr} {n : Name} {i : Nat}, Reach s'.env root p → f p = .rest n i → Lives s'.env.grammar p := by
    intro p n i hp hfp
    obtain ⟨d, hd⟩ := U.linked.closed.def_ hp
    obtain ⟨gd, g1, g2⟩ := W.expr hp hd
    rw [hfp] at g1
    simp only [spaced, Option.map_eq_some_iff] at g1
    obtain ⟨x, -, rfl⟩ := g1
    simp only [hidden] at g2
    obtain ⟨items, h1, h2⟩ := seq_map g2.symm
    refine Lives.seq (Env.grammar_some hd) h1 fun y hy => ?_
    have hm : (f y.1, y.2.1, y.2.2) ∈ items.map fun x => (f x.1, x.2.1, x.2.2) := List.mem_map.2 ⟨y, hy, rfl⟩
    rw [← h2] at hm
    simp only [List.mem_cons, List.not_mem_nil, or_false, Prod.mk.injEq] at hm
    rcases hm with ⟨hm, -⟩ | ⟨hm, -⟩
    · exact space (item hp hd h1 y hy) hm
    · exact given (item hp hd h1 y hy) hm
  obtain ⟨d, hd⟩ := U.linked.closed.def_ hp
  obtain ⟨gd, g1, g2⟩ := W.expr hp hd
  cases hfp : f p with
  | given n => exact given hp hfp
  | space => exact space hp hfp
  | rest n i => exact rest hp hfp
  | several n i =>
    rw [hfp] at g1
    simp only [spaced, Option.map_eq_some_iff] at g1
    obtain ⟨x, -, rfl⟩ := g1
    simp only [hidden] at g2
    obtain ⟨items, h1, h2⟩ := seq_map g2.symm
    refine Lives.seq (Env.grammar_some hd) h1 fun y hy => ?_
    have hm : (f y.1, y.2.1, y.2.2) ∈ items.map fun x => (f x.1, x.2.1, x.2.2) := List.mem_map.2 ⟨y, hy, rfl⟩
    rw [← h2] at hm
    simp only [lead, occurrences, List.mem_append, List.mem_cons, List.not_mem_nil, or_false, Prod.mk.injEq] at hm
    rcases hm with hm | ⟨hm, -⟩ | ⟨hm, -⟩
    · split at hm
      · simp only [List.mem_cons, List.not_mem_nil, or_false, Prod.mk.injEq] at hm
        exact space (item hp hd h1 y hy) hm.1
      · cases hm
    · exact given (item hp hd h1 y hy) hm
    · exact rest (item hp hd h1 y hy) hm
  | body =>
    obtain ⟨t, ht⟩ := given .root W.root_
    obtain ⟨dr, hdr⟩ := U.linked.closed.def_ (.root : Reach s'.env root root)
    obtain ⟨gr, r1, r2⟩ := W.expr .root hdr
    rw [W.root_] at r1
    simp only [spaced, Option.map_eq_some_iff, if_true] at r1
    obtain ⟨g, -, rfl⟩ := r1
    simp only at r2
    obtain ⟨items, h1, h2⟩ := seq_map r2.symm
    generalize t.length = l at ht
    cases ht with
    | char k1 k2 => rw [Env.grammar_some hdr] at k1; cases k1; rw [h1] at k2; cases k2
    | choice k1 k2 => rw [Env.grammar_some hdr] at k1; cases k1; rw [h1] at k2; cases k2
    | seq k1 k2 k3 =>
      rw [Env.grammar_some hdr] at k1; cases k1
      rw [h1] at k2; cases k2
      have hlen : items.length = 3 := by
        have := congrArg List.length h2
        simpa using this.symm
      obtain ⟨a, b, c, rfl⟩ : ∃ a b c, items = [a, b, c] := by
        cases items with
        | nil => simp at hlen
        | cons a items =>
          cases items with
          | nil => simp at hlen
          | cons b items =>
            cases items with
            | nil => simp at hlen
            | cons c items =>
              cases items with
              | nil => exact ⟨a, b, c, rfl⟩
              | cons => simp at hlen
      obtain ⟨b0, b1, b2⟩ := b
      simp only [List.map_cons, List.map_nil, List.cons.injEq, Prod.mk.injEq] at h2
      obtain ⟨-, ⟨hb, hb1, hb2⟩, -⟩ := h2
      subst hb1 hb2
      obtain rfl : b0 = p := W.apart (item .root hdr h1 (b0, 1, 1) (by simp)) hp (by rw [← hb, hfp])
      cases k3 with
      | cons _ _ k4 =>
        cases k4 with
        | cons k5 k6 _ =>
          unfold InRange at k6
          cases k5 with
          | zero => simp at k6
          | succ _ k7 => exact k7.lives

end
end Treerack
