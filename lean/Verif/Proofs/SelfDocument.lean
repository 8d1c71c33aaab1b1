import Verif.Proofs.SelfExpr

/-
The parsers of syntax documents read definitions and documents.
-/

namespace Treerack
open Spec

namespace SelfG

variable {input : List Rune} {i j k : Nat} {s t r : List Rune} {c : Rune} {p q : Ptr}

/-- Nothing but the empty text is found at the end. -/
theorem RS.atEnd (h : At input i []) (ho : ordinary p = true) : RS input p i none :=
  RS.not (P := fun _ => false) (ps := [p]) (fun _ => rfl) (List.all_eq_true.2 fun _ _ => rfl) h Heads.nil (by simp) ho

/-! ### Flags -/

theorem flag {f : Name} (hf : f ∈ flagNames) (h : At input i (f ++ s)) :
    ∃ j n, RS input 170 i (some (j, [n])) ∧ At input j s ∧ n.name = f := by
  simp only [flagNames, List.map_cons, List.map_nil, List.mem_cons, List.not_mem_nil, or_false] at hf
  rcases hf with rfl | rfl | rfl | rfl | rfl | rfl | rfl
  · have h : At input i (97 :: 108 :: 105 :: 97 :: 115 :: s) := h
    exact ⟨_, _, RS.choiceAlias g170 (OS.pickChar (o := 139) (by decide) (by decide +kernel) (by decide) h (by decide) (RS.seq g139
      (IS.one (RS.char g134 h (by decide)) (by decide) (IS.one (RS.char g135 h.next (by decide)) (by decide) (IS.one (RS.char g136 h.next.next (by decide)) (by decide)
      (IS.one (RS.char g137 h.next.next.next (by decide)) (by decide) (IS.one (RS.char g138 h.next.next.next.next (by decide)) (by decide) IS.end_))))))),
      h.next.next.next.next.next, rfl⟩
  · have h : At input i (119 :: 115 :: s) := h
    exact ⟨_, _, RS.choiceAlias g170 (OS.pickChar (o := 142) (by decide) (by decide +kernel) (by decide) h (by decide) (RS.seq g142
      (IS.one (RS.char g140 h (by decide)) (by decide) (IS.one (RS.char g141 h.next (by decide)) (by decide) IS.end_)))),
      h.next.next, rfl⟩
  · have h : At input i (110 :: 111 :: 119 :: 115 :: s) := h
    refine ⟨_, _, RS.choiceAlias g170 (OS.only (o := 147) (by simp) (RS.seq g147
      (IS.one (RS.char g143 h (by decide)) (by decide) (IS.one (RS.char g144 h.next (by decide)) (by decide) (IS.one (RS.char g145 h.next.next (by decide)) (by decide)
      (IS.one (RS.char g146 h.next.next.next (by decide)) (by decide) IS.end_))))) fun x hx hne => ?_),
      h.next.next.next.next, rfl⟩
    have hx : x ∈ [139, 142, 150, 164, 169] ∨ x = 155 := by revert hne; revert hx; revert x; decide
    rcases hx with hx | rfl
    · exact RS.not (ascii_is (by decide)) (by decide +kernel) h Heads.is hx (by clear hne; revert hx; revert x; decide)
    · exact RS.seqNone g155 (IS.one (m := none) (RS.char g151 h (by decide)) (by decide) (IS.one (m := none) (RS.char g152 h.next (by decide)) (by decide)
        (IS.fail (RS.noChar g153 h.next.next (by decide)))))
  · have h : At input i (107 :: 119 :: s) := h
    exact ⟨_, _, RS.choiceAlias g170 (OS.pickChar (o := 150) (by decide) (by decide +kernel) (by decide) h (by decide) (RS.seq g150
      (IS.one (RS.char g148 h (by decide)) (by decide) (IS.one (RS.char g149 h.next (by decide)) (by decide) IS.end_)))),
      h.next.next, rfl⟩
  · have h : At input i (110 :: 111 :: 107 :: 119 :: s) := h
    refine ⟨_, _, RS.choiceAlias g170 (OS.only (o := 155) (by simp) (RS.seq g155
      (IS.one (RS.char g151 h (by decide)) (by decide) (IS.one (RS.char g152 h.next (by decide)) (by decide) (IS.one (RS.char g153 h.next.next (by decide)) (by decide)
      (IS.one (RS.char g154 h.next.next.next (by decide)) (by decide) IS.end_))))) fun x hx hne => ?_),
      h.next.next.next.next, rfl⟩
    have hx : x ∈ [139, 142, 150, 164, 169] ∨ x = 147 := by revert hne; revert hx; revert x; decide
    rcases hx with hx | rfl
    · exact RS.not (ascii_is (by decide)) (by decide +kernel) h Heads.is hx (by clear hne; revert hx; revert x; decide)
    · exact RS.seqNone g147 (IS.one (m := none) (RS.char g143 h (by decide)) (by decide) (IS.one (m := none) (RS.char g144 h.next (by decide)) (by decide)
        (IS.fail (RS.noChar g145 h.next.next (by decide)))))
  · have h : At input i (102 :: 97 :: 105 :: 108 :: 112 :: 97 :: 115 :: 115 :: s) := h
    exact ⟨_, _, RS.choiceAlias g170 (OS.pickChar (o := 164) (by decide) (by decide +kernel) (by decide) h (by decide) (RS.seq g164
      (IS.one (RS.char g156 h (by decide)) (by decide) (IS.one (RS.char g157 h.next (by decide)) (by decide) (IS.one (RS.char g158 h.next.next (by decide)) (by decide)
      (IS.one (RS.char g159 h.next.next.next (by decide)) (by decide) (IS.one (RS.char g160 h.next.next.next.next (by decide)) (by decide)
      (IS.one (RS.char g161 h.next.next.next.next.next (by decide)) (by decide) (IS.one (RS.char g162 h.next.next.next.next.next.next (by decide)) (by decide)
      (IS.one (RS.char g163 h.next.next.next.next.next.next.next (by decide)) (by decide) IS.end_)))))))))),
      h.next.next.next.next.next.next.next.next, rfl⟩
  · have h : At input i (114 :: 111 :: 111 :: 116 :: s) := h
    exact ⟨_, _, RS.choiceAlias g170 (OS.pickChar (o := 169) (by decide) (by decide +kernel) (by decide) h (by decide) (RS.seq g169
      (IS.one (RS.char g165 h (by decide)) (by decide) (IS.one (RS.char g166 h.next (by decide)) (by decide) (IS.one (RS.char g167 h.next.next (by decide)) (by decide)
      (IS.one (RS.char g168 h.next.next.next (by decide)) (by decide) IS.end_)))))),
      h.next.next.next.next, rfl⟩

theorem flags : ∀ {fs : List Name} {i : Nat}, (∀ f ∈ fs, f ∈ flagNames) → Heads (fun c => !is 58 c) s → At input i (fs.flatMap (fun f => 58 :: f) ++ s) →
    ∃ j ns, Star input 173 i j ns ∧ At input j s ∧ core ns = ns ∧ ns.map Node.name = fs := by
  intro fs
  induction fs with
  | nil => exact fun {i} _ hs h => ⟨i, [], .stop (RS.not (ascii_is (by decide)).not (ps := [173]) (by decide +kernel) h hs (by simp) (by decide)), h, rfl, rfl⟩
  | cons f fs ih =>
    intro i hf hs h
    have h : At input i (58 :: (f ++ (fs.flatMap (fun f => 58 :: f) ++ s))) := by simpa using h
    obtain ⟨k, n, h1, h2, h3⟩ := flag (hf f List.mem_cons_self) h.next
    obtain ⟨j, ns, a1, a2, a3, a4⟩ := ih (fun x hx => hf x (List.mem_cons_of_mem _ hx)) hs h2
    have h173 : RS input 173 i (some (k, [n])) :=
      RS.seqAlias g173 (IS.one (RS.lit g172 g171 (by decide) h (by decide)) (by decide) (IS.one h1 (by decide) IS.end_))
    refine ⟨j, n :: ns, Star.step h173 a1, a2, ?_, by rw [List.map_cons, h3, a4]⟩
    have : n.name ≠ runes "comment" := by
      rw [h3]
      have key : ∀ f ∈ flagNames, f ≠ runes "comment" := by decide
      exact key f (hf f List.mem_cons_self)
    rw [core_cons this, a3]

/-! ### Definitions -/

theorem definition_starts {d : DDef} (h : WrittenDefinition d t) : ∃ c r, t = c :: r ∧ isSymbolChar c = true := by
  cases h with
  | @mk name fs e g g' t hn =>
    cases name with
    | nil => exact absurd rfl hn.nonEmpty
    | cons c name => exact ⟨c, _, rfl, hn.chars c List.mem_cons_self⟩

theorem definition_outer {d : DDef} (h : WrittenDefinition d t) : Outer (t ++ s) := by
  obtain ⟨c, r, rfl, hc⟩ := definition_starts h
  exact Heads.cons (symbol_outer c hc)

theorem definition {d : DDef} (hw : WrittenDefinition d t) (hf : Follow exprEnd s) (h : At input i (t ++ s)) :
    ∃ j n, RS input 177 i (some (j, [n])) ∧ At input j s ∧ n.name = runes "definition" ∧ DefinitionNode n d := by
  cases hw with
  | @mk name fs e g g' t hn hfs hg hg' he =>
    have h : At input i (name ++ (fs.flatMap (fun f => 58 :: f) ++ (g ++ 61 :: (g' ++ (t ++ s))))) := by simpa using h
    have hin : ∀ c, isInner c = true → (!isSymbolChar c) = true := ascii_imp (Ascii.contains (by decide)) ascii_symbol.not (by decide +kernel)
    have hsym : Heads (fun c => !isSymbolChar c) (fs.flatMap (fun f => 58 :: f) ++ (g ++ 61 :: (g' ++ (t ++ s)))) := by
      cases fs with
      | nil => exact layout_heads (g := g) (P := fun c => !isSymbolChar c) hg hin (Heads.cons (by decide))
      | cons f fs => exact Heads.cons (by decide)
    have hcol : Heads (fun c => !is 58 c) (g ++ 61 :: (g' ++ (t ++ s))) :=
      layout_heads hg (ascii_imp (Ascii.contains (by decide)) (ascii_is (by decide)).not (by decide +kernel)) (Heads.cons (by decide))
    obtain ⟨j1, x, a1, a2, a3, a4⟩ := symbol hn hsym h
    obtain ⟨j2, ns, b1, b2, b3, b4⟩ := flags hfs hcol a2
    obtain ⟨j3, c1, d1, d2, d3⟩ := layout hg (outer_cons (by decide)) b2
    obtain ⟨j4, c2, e1, e2, e3⟩ := layout hg' (expr_starts he).outer d2.next
    obtain ⟨j5, ms, f1, f2, m, f3, f4⟩ := expr he hf e2
    refine ⟨j5, _, RS.seq g177 (IS.one (RS.seqAlias g174 (IS.one a1 (by decide) (IS.star (by decide) b1 IS.end_ (by decide)))) (by decide)
      (IS.star (by decide) d1 (IS.one (RS.lit g176 g175 (by decide) d2 (by decide)) (by decide) (IS.star (by decide) e1 (IS.one f1 (by decide) IS.end_) (by decide))) (by decide))),
      f2, rfl, ⟨x, ns, m, ?_, a4, by rw [b4], f4⟩⟩
    show core (([x] ++ (ns ++ [])) ++ (c1 ++ ([] ++ (c2 ++ (ms ++ []))))) = _
    simp only [core_append, d3.core, e3.core, f3, b3, core_one (show x.name ≠ _ by rw [a3]; decide)]
    simp [core]

/-! ### Semicolons -/

/-- Texts that consist of whitespace, comments, and a number of semicolons, up to the rest `s`. -/
inductive Semis (s : List Rune) : Nat → List Rune → Prop
  | done {r : List Rune} : Lay s r → Semis s 0 r
  | semi {k : Nat} {r u : List Rune} : Lay (59 :: u) r → Semis s k u → Semis s (k + 1) r

theorem semis {k : Nat} {u : List Rune} (h : Between k t) (hu : Lay s u) : Semis s k (t ++ u) := by
  induction h with
  | layout hg => exact .done ((lay_of hg _).trans hu)
  | @semicolon k g t hg _ ih =>
    rw [List.append_assoc]
    exact .semi (lay_of hg _) ih

/-- The end of a list of definitions, or the next one. -/
abbrev NoSemi (s : List Rune) : Prop := Heads (fun c => !isInner c && !is 59 c) s

theorem ascii_noSemi : Ascii (fun c => !isInner c && !is 59 c) := ascii_outer.and (ascii_is (by decide)).not

theorem NoSemi.outer (h : NoSemi s) : Outer s := h.mono fun c hc => by
  simp only [Bool.and_eq_true] at hc
  exact hc.1

/-- Further semicolons, with layout between them. -/
theorem semis_star {nm nm' nm'' : Name} {al : Bool} {x y z : Ptr} (hx : selfEnv.grammar x = some ⟨nm, true, .seq [(194, 0, -1), (y, 1, 1)]⟩)
    (hy : selfEnv.grammar y = some ⟨nm', true, .seq [(z, 1, 1)]⟩) (hz : selfEnv.grammar z = some ⟨nm'', al, .char false [59] []⟩)
    (oy : ordinary y = true) (oz : ordinary z = true) (hn : never (fun c => !isInner c && !is 59 c) [y] = true)
    (hs : NoSemi s) {k : Nat} (h : Semis s k r) : ∀ {i : Nat}, At input i r →
    ∃ j ns r', Star input x i j ns ∧ Comments ns ∧ At input j r' ∧ Lay s r' := by
  induction h with
  | done hl =>
    intro i h
    obtain ⟨j, ns, a1, a2, a3⟩ := lay hl hs.outer h
    exact ⟨i, [], _, .stop (RS.seqNone hx (IS.star (m := none) (by decide) a1 (IS.fail (RS.not ascii_noSemi hn a2 hs (by simp) oy)) (by decide))), .nil, h, hl⟩
  | semi hl _ ih =>
    intro i h
    obtain ⟨j, ns, a1, a2, a3⟩ := lay hl (outer_cons (by decide)) h
    obtain ⟨j', ns', r', b1, b2, b3, b4⟩ := ih a2.next
    have hs := RS.seqAlias hx (IS.star (by decide) a1 (IS.one (RS.lit hy hz oz a2 (by decide)) oy IS.end_) (by decide))
    refine ⟨j', _, r', Star.step hs b1, ?_, b3, b4⟩
    intro n hn
    rcases List.mem_append.1 hn with hn | hn
    · have hn : n ∈ ns ++ ([] ++ []) := hn
      exact a3 n (by simpa using hn)
    · exact b2 n hn

/-- The semicolons in front of the definitions. -/
theorem leading {k : Nat} (hs : NoSemi s) (h : Semis s k r) (ha : At input i r) : ∃ j0 j c ns, Star input 194 i j0 c ∧ Comments c ∧ Comments ns ∧ At input j s ∧
    ∀ {items m}, IS input items 0 j m → IS input ((190, 0, 1) :: (194, 0, -1) :: items) 0 j0 (prepend ns m) := by
  cases h with
  | done hl =>
    obtain ⟨j, ns, a1, a2, a3⟩ := lay hl hs.outer ha
    refine ⟨j, j, ns, [], a1, a3, .nil, a2, fun hi => ?_⟩
    exact IS.skip (RS.not ascii_noSemi (ps := [190]) (by decide +kernel) a2 hs (by simp) (by decide))
      (IS.star (by decide) (.stop (RS.not ascii_noSemi (ps := [194]) (by decide +kernel) a2 hs (by simp) (by decide))) hi (by decide))
  | semi hl h =>
    obtain ⟨j0, c, a1, a2, a3⟩ := lay hl (outer_cons (by decide)) ha
    obtain ⟨j1, ns, r', b1, b2, b3, b4⟩ := semis_star g189 g186 g185 (by decide) (by decide) (by decide +kernel) hs h a2.next
    obtain ⟨j2, c2, d1, d2, d3⟩ := lay b4 hs.outer b3
    refine ⟨j0, j2, c, ns ++ c2, a1, a3, ?_, d2, fun hi => ?_⟩
    · intro n hn
      exact (List.mem_append.1 hn).elim (b2 n) (d3 n)
    · have h190 : RS input 190 j0 (some (j1, ns)) := by
        have := RS.seqAlias g190 (IS.one (RS.lit g186 g185 (by decide) a2 (by decide)) (by decide) (IS.star (by decide) b1 IS.end_ (by decide)))
        simpa [prepend] using this
      rw [← prepend_append]
      exact IS.one h190 (by decide) (IS.star (by decide) d1 hi (by decide))

/-- The semicolons behind the definitions. -/
theorem trailing {k : Nat} (h : Semis [] k r) (ha : At input i r) : ∃ j ns r', Comments ns ∧ At input j r' ∧ Lay [] r' ∧
    ∀ {items m}, IS input items 0 j m → IS input ((192, 0, 1) :: items) 0 i (prepend ns m) := by
  have hs : NoSemi [] := Heads.nil
  cases h with
  | done hl =>
    obtain ⟨j, ns, a1, a2, a3⟩ := lay hl hs.outer ha
    refine ⟨i, [], r, .nil, ha, hl, fun hi => ?_⟩
    rw [prepend_nil]
    exact IS.skip (RS.seqNone g192 (IS.star (m := none) (by decide) a1 (IS.fail (RS.not ascii_noSemi (ps := [188]) (by decide +kernel) a2 hs (by simp) (by decide))) (by decide))) hi
  | semi hl h =>
    obtain ⟨j0, c, a1, a2, a3⟩ := lay hl (outer_cons (by decide)) ha
    obtain ⟨j1, ns, r', b1, b2, b3, b4⟩ := semis_star g191 g188 g187 (by decide) (by decide) (by decide +kernel) hs h a2.next
    refine ⟨j1, c ++ ns, r', ?_, b3, b4, fun hi => ?_⟩
    · intro n hn
      exact (List.mem_append.1 hn).elim (a3 n) (b2 n)
    · have h192 : RS input 192 i (some (j1, c ++ ns)) := by
        have := RS.seqAlias g192 (IS.star (by decide) a1 (IS.one (RS.lit g188 g187 (by decide) a2 (by decide)) (by decide) (IS.star (by decide) b1 IS.end_ (by decide))) (by decide))
        simpa [prepend] using this
      exact IS.one h192 (by decide) hi

/-- Behind the last definition there is none. -/
theorem no_more {k : Nat} (h : Semis [] k r) (ha : At input i r) : ∃ j c, Star input 194 i j c ∧ RS input 181 j none := by
  have hs : NoSemi [] := Heads.nil
  cases h with
  | done hl =>
    obtain ⟨j, ns, a1, a2, a3⟩ := lay hl hs.outer ha
    exact ⟨j, ns, a1, RS.not ascii_noSemi (ps := [181]) (by decide +kernel) a2 hs (by simp) (by decide)⟩
  | semi hl h =>
    obtain ⟨j0, c, a1, a2, a3⟩ := lay hl (outer_cons (by decide)) ha
    obtain ⟨j1, ns, r', b1, b2, b3, b4⟩ := semis_star g180 g179 g178 (by decide) (by decide) (by decide +kernel) hs h a2.next
    obtain ⟨j2, c2, d1, d2, d3⟩ := lay b4 hs.outer b3
    exact ⟨j0, c, a1, RS.seqNone g181 (IS.one (m := none) (RS.lit g179 g178 (by decide) a2 (by decide)) (by decide) (IS.star (m := none) (by decide) b1
      (IS.star (m := none) (by decide) d1 (IS.fail (RS.atEnd d2 (by decide))) (by decide)) (by decide)))⟩

theorem semis_follow {k : Nat} (h : Semis s k r) (hs : Heads (fun c => exprEnd.contains c) s) : Follow exprEnd r := by
  cases h with
  | done hl => exact ⟨_, hl, hs⟩
  | semi hl => exact ⟨_, hl, Heads.cons (by decide)⟩

theorem definitions_outer {doc : Document} (h : WrittenDefinitions doc t) : NoSemi (t ++ s) := by
  have key : ∀ {d : DDef} {t u : List Rune}, WrittenDefinition d t → NoSemi (t ++ u) := by
    intro d t u h
    obtain ⟨c, r, rfl, hc⟩ := definition_starts h
    exact Heads.cons (ascii_imp ascii_symbol ascii_noSemi (by decide +kernel) c hc)
  cases h with
  | one h => exact key h
  | cons h => rw [List.append_assoc, List.append_assoc]; exact key h

theorem definitions {doc : Document} (hw : WrittenDefinitions doc t) {l : Nat} {r : List Rune} (hr : Semis [] l r) : ∀ {i : Nat}, At input i (t ++ r) →
    ∃ k j n ns, RS input 177 i (some (k, [n])) ∧ n.name = runes "definition" ∧ Star input 182 k j ns ∧ At input j r ∧ DefinitionNodes (n :: core ns) doc ∧
      ∀ {items m}, IS input items 0 j m → IS input ((183, 0, 1) :: items) 0 k (prepend ns m) := by
  induction hw with
  | one hw =>
    intro i h
    obtain ⟨j, n, h1, h2, h3, h4⟩ := definition hw (semis_follow hr Heads.nil) h
    obtain ⟨j', c, a1, a2⟩ := no_more hr h2
    refine ⟨j, j, n, [], h1, h3, .stop (RS.seqNone g182 (IS.star (m := none) (by decide) a1 (IS.fail a2) (by decide))), h2, .cons h4 .nil, fun hi => ?_⟩
    rw [prepend_nil]
    exact IS.skip (RS.seqNone g183 (IS.star (m := none) (by decide) a1 (IS.fail a2) (by decide))) hi
  | @cons d ds k t sp u hw hb hu ih =>
    intro i h
    have h : At input i (t ++ (sp ++ (u ++ r))) := by simpa using h
    have hse : Semis (u ++ r) (k + 1) (sp ++ (u ++ r)) := semis hb .done
    have hns : NoSemi (u ++ r) := definitions_outer hu
    cases hse with
    | semi hl hse =>
      rename_i v
      obtain ⟨j, n, h1, h2, h3, h4⟩ := definition hw ⟨_, hl, Heads.cons (by decide)⟩ h
      obtain ⟨j0, c, a1, a2, a3⟩ := lay hl (outer_cons (by decide)) h2
      obtain ⟨j1, ns, r', b1, b2, b3, b4⟩ := semis_star g180 g179 g178 (by decide) (by decide) (by decide +kernel) hns hse a2.next
      obtain ⟨j2, c2, d1, d2, d3⟩ := lay b4 hns.outer b3
      obtain ⟨k', j', n', ms, e1, e2, e3, e4, e5, _⟩ := ih d2
      have h181 : RS input 181 j0 (some (k', ns ++ (c2 ++ [n']))) := by
        have := RS.seqAlias g181 (IS.one (RS.lit g179 g178 (by decide) a2 (by decide)) (by decide) (IS.star (by decide) b1
          (IS.star (by decide) d1 (IS.one e1 (by decide) IS.end_) (by decide)) (by decide)))
        simpa [prepend] using this
      have h182 : RS input 182 j (some (k', c ++ (ns ++ (c2 ++ [n'])))) := by
        have := RS.seqAlias g182 (IS.star (by decide) a1 (IS.one h181 (by decide) IS.end_) (by decide))
        simpa [prepend] using this
      have h183 : RS input 183 j (some (j', c ++ (ns ++ (c2 ++ [n'])) ++ ms)) := by
        have := RS.seqAlias g183 (IS.star (by decide) a1 (IS.one h181 (by decide) (IS.star (by decide) e3 IS.end_ (by decide))) (by decide))
        simpa [prepend] using this
      refine ⟨j, j', n, _, h1, h3, Star.step h182 e3, e4, .cons h4 ?_, fun hi => IS.one h183 (by decide) hi⟩
      simp only [core_append, a3.core, b2.core, d3.core, core_one (show n'.name ≠ _ by rw [e2]; decide)]
      simpa using e5

/-! ### Documents -/

theorem RS.empty195 {items : List (Ptr × Int × Int)} {ns : List Node} {m : Match} (h : RS input 195 i (some (j, ns))) (hi : IS input items 0 j m) :
    IS input ((195, 1, 1) :: items) 0 i (prepend ns m) := by
  rcases Nat.lt_or_eq_of_le (h.bounded _ rfl).1 with hlt | he
  · exact .last h hlt (by decide) (by decide) hi
  · have he : i = j := he
    subst he
    have := RefItems.empty (mn := 1) (mx := 1) (k := 0) h hi
    simpa using this

/-- Written documents are accepted, and the tree stands for the document. -/
theorem document {doc : Document} (hw : WrittenDocument doc input) :
    ∃ n, RS input 196 0 (some (input.length, [n])) ∧ DocumentNode n doc := by
  have fin : ∀ {j : Nat}, At input j [] → j = input.length := fun h => by have := h.len; simpa using this
  cases hw with
  | @empty k t e hb he =>
    have hse : Semis [] k (t ++ e) := semis hb (lay_last he)
    obtain ⟨j0, j, c, ns, a1, a2, a3, a4, a5⟩ := leading Heads.nil hse At.start
    have h195 : RS (t ++ e) 195 j0 (some (j, ns)) := by
      have := RS.seqAlias g195 (a5 (IS.skip (RS.atEnd a4 (by decide))
        (IS.skip (RS.atEnd a4 (by decide)) IS.end_)))
      simpa [prepend] using this
    have h194 := Star.stop (RS.atEnd (p := 194) a4 (by decide))
    have := RS.seq g196 (IS.star (by decide) a1 (RS.empty195 h195 (IS.star (by decide) h194 IS.end_ (by decide))) (by decide))
    refine ⟨_, fin a4 ▸ this, ?_⟩
    show DefinitionNodes (core (c ++ (ns ++ ([] ++ [])))) []
    simp only [core_append, a2.core, a3.core]
    exact .nil
  | @definitions _ k l t u t' e hb hd hb' he =>
    have hst : At (t ++ u ++ t' ++ e) 0 (t ++ (u ++ (t' ++ e))) := by simpa using At.start (input := t ++ u ++ t' ++ e)
    have hr : Semis [] l (t' ++ e) := semis hb' (lay_last he)
    obtain ⟨j0, j, c, ns, a1, a2, a3, a4, a5⟩ := leading (definitions_outer hd) (semis hb .done) hst
    obtain ⟨k1, j1, n, ms, b1, b2, b3, b4, b5, b6⟩ := definitions hd hr a4
    obtain ⟨j2, ts, r', c1, c2, c3, c4⟩ := trailing hr b4
    obtain ⟨j3, ls, d1, d2, d3⟩ := lay c3 Heads.nil c2
    have h184 : RS (t ++ u ++ t' ++ e) 184 j (some (j1, [n] ++ ms)) := by
      have := RS.seqAlias g184 (IS.one b1 (by decide) (b6 IS.end_))
      simpa [prepend] using this
    have h195 : RS (t ++ u ++ t' ++ e) 195 j0 (some (j2, ns ++ (([n] ++ ms) ++ ts))) := by
      have := RS.seqAlias g195 (a5 (IS.one h184 (by decide) (c4 IS.end_)))
      simpa [prepend] using this
    have := RS.seq g196 (IS.star (by decide) a1 (RS.empty195 h195 (IS.star (by decide) d1 IS.end_ (by decide))) (by decide))
    refine ⟨_, fin d2 ▸ this, ?_⟩
    show DefinitionNodes (core (c ++ ((ns ++ (([n] ++ ms) ++ ts)) ++ (ls ++ [])))) doc
    simp only [core_append, a2.core, a3.core, c1.core, d3.core, core_one (show n.name ≠ _ by rw [b2]; decide)]
    simpa [core] using b5

end SelfG
end Treerack
