import Verif.Proofs.GoPrint

/-
The text of the generated code and the statements of the generated code.
-/

namespace Treerack

/-- None of the writes from `a` to `b` fails. -/
def Fine (w : Writer) (a b : Nat) : Prop := ∀ i, a ≤ i → i < b → w i = false

theorem Fine.split {w : Writer} {a b c : Nat} (h1 : a ≤ b) (h2 : b ≤ c) : Fine w a c ↔ Fine w a b ∧ Fine w b c := by
  constructor
  · exact fun h => ⟨fun i hi hj => h i hi (by omega), fun i hi hj => h i (by omega) hj⟩
  · rintro ⟨h, h'⟩ i hi hj
    by_cases hb : i < b
    · exact h i hi hb
    · exact h' i (by omega) hj

theorem Fine.refl {w : Writer} {a : Nat} : Fine w a a := fun i hi hj => absurd hi (by omega)

/-- The output after further successful writes. -/
def Out.adds (o : Out) (ts : List (List Rune)) : Out := { text := o.text ++ ts.flatten, writes := o.writes + ts.length }

theorem Out.adds_nil (o : Out) : o.adds [] = o := by simp [Out.adds]

theorem Out.adds_adds (o : Out) (ts ts' : List (List Rune)) : (o.adds ts).adds ts' = o.adds (ts ++ ts') := by
  simp [Out.adds, Nat.add_assoc]

theorem Out.fprints_error (w : Writer) (o : Out) : ∀ ts : List (List Rune), Out.fprints w (o, true) ts = (o, true)
  | [] => rfl
  | _ :: ts => Out.fprints_error w o ts

/-- What the writes do. -/
structure Wrote (w : Writer) (o : Out) (ts : List (List Rune)) (x : Out × Bool) : Prop where
  le : o.writes ≤ x.1.writes
  fine : x.2 = false ↔ Fine w o.writes x.1.writes
  all : x.2 = false → x.1 = o.adds ts
  some : ∃ n, n ≤ ts.length ∧ x.1.text = o.text ++ (ts.take n).flatten

theorem Out.fprints_wrote (w : Writer) : ∀ (ts : List (List Rune)) (o : Out), Wrote w o ts (Out.fprints w (o, false) ts)
  | [], o => ⟨Nat.le_refl _, by simpa [Out.fprints] using Fine.refl, fun _ => (Out.adds_nil o).symm, 0, by simp, by simp [Out.fprints]⟩
  | t :: ts, o => by
    have e : Out.fprints w (o, false) (t :: ts) = Out.fprints w (o.write w t) ts := rfl
    rw [e]
    unfold Out.write
    cases hw : w o.writes with
    | true =>
      simp only [if_true]
      rw [Out.fprints_error]
      refine ⟨Nat.le_succ _, ⟨fun h => absurd h (by simp), fun h => ?_⟩, fun h => absurd h (by simp), 0, by simp, by simp⟩
      have := h o.writes (Nat.le_refl _) (Nat.lt_succ_self _)
      rw [hw] at this
      cases this
    | false =>
      simp only [Bool.false_eq_true, if_false]
      have h := Out.fprints_wrote w ts { text := o.text ++ t, writes := o.writes + 1 }
      have e1 : (⟨o.text ++ t, o.writes + 1⟩ : Out) = o.adds [t] := by simp [Out.adds]
      have h1 : Fine w o.writes (o.writes + 1) := by
        intro i hi hj
        have : i = o.writes := by omega
        rw [this]
        exact hw
      refine ⟨Nat.le_trans (Nat.le_succ _) h.le, h.fine.trans ?_, fun hx => ?_, ?_⟩
      · rw [Fine.split (Nat.le_succ _) h.le]
        exact ⟨fun h => ⟨h1, h⟩, fun h => h.2⟩
      · rw [h.all hx, e1, Out.adds_adds]
        rfl
      · obtain ⟨n, hn, hx⟩ := h.some
        exact ⟨n + 1, by simpa using hn, by rw [hx]; simp⟩

section
variable {env : Env} {key : PDef → Name} {lit : PDef → Lit} {builder : Bool} {w : Writer}

/-- What the `generate` methods do. -/
structure WroteStmts (builder : Bool) (w : Writer) (o : Out) (g : Res (List Stmt × List Name)) (done : List Name) (o' : Out) (e : Bool) : Prop where
  le : o.writes ≤ o'.writes
  fine : e = false ↔ Fine w o.writes o'.writes
  all : e = false → ∃ ss, g = .ok (ss, done) ∧ o' = o.adds (ss.flatMap (stmtWrites builder))

theorem generateAllTo_wrote {rec : Ptr → List Name → Out → Res (List Name × Out × Bool)} {rec' : Ptr → List Name → Res (List Stmt × List Name)}
    (hrec : ∀ p done o done' o' e, rec p done o = .ok (done', o', e) → WroteStmts builder w o (rec' p done) done' o' e) :
    ∀ (ps : List Ptr) (done : List Name) (o : Out) (done' : List Name) (o' : Out) (e : Bool),
      generateAllTo rec ps done o = .ok (done', o', e) → WroteStmts builder w o (generateAll rec' ps done) done' o' e
  | [], done, o, done', o', e, h => by
    cases h
    exact ⟨Nat.le_refl _, by simpa using Fine.refl, fun _ => ⟨[], rfl, (Out.adds_nil o).symm⟩⟩
  | p :: ps, done, o, done', o', e, h => by
    unfold generateAllTo at h
    cases hr : rec p done o with
    | panic => rw [hr] at h; cases h
    | oof => rw [hr] at h; cases h
    | ok x =>
      obtain ⟨done1, o1, e1⟩ := x
      have h1 := hrec p done o done1 o1 e1 hr
      rw [hr] at h
      simp only [Res.bind] at h
      cases e1 with
      | true =>
        simp only [if_true] at h
        cases h
        exact ⟨h1.le, h1.fine, fun hx => absurd hx (by simp)⟩
      | false =>
        simp only [Bool.false_eq_true, if_false] at h
        have h2 := generateAllTo_wrote hrec ps done1 o1 done' o' e h
        refine ⟨Nat.le_trans h1.le h2.le, ?_, fun hx => ?_⟩
        · rw [h2.fine, Fine.split h1.le h2.le]
          exact ⟨fun h => ⟨h1.fine.1 rfl, h⟩, fun h => h.2⟩
        · obtain ⟨ss1, hs1, ho1⟩ := h1.all rfl
          obtain ⟨ss2, hs2, ho2⟩ := h2.all hx
          refine ⟨ss1 ++ ss2, ?_, ?_⟩
          · unfold generateAll
            rw [hs1]
            simp only [Res.bind]
            rw [hs2]
          · rw [ho2, ho1, Out.adds_adds, List.flatMap_append]

theorem generateTo_wrote {declare : PDef → List (List Rune)} (hd : ∀ d, declare d = stmtWrites builder (.declare d.id (lit d))) :
    ∀ (n : Nat) (p : Ptr) (done : List Name) (o : Out) (done' : List Name) (o' : Out) (e : Bool),
      generateTo env key declare builder w n p done o = .ok (done', o', e) →
      WroteStmts builder w o (generate env key lit n p done) done' o' e
  | 0, _, _, _, _, _, _, h => by cases h
  | n + 1, p, done, o, done', o', e, h => by
    unfold generateTo at h
    unfold generate
    cases hp : env.defs[p]? with
    | none => rw [hp] at h; cases h
    | some d =>
      rw [hp] at h
      simp only at h ⊢
      have hx := Out.fprints_wrote w (declare d) o
      have go : ∀ (field : Field) (children : List Ptr),
          (if done.contains (key d) then (.ok (done, o, false) : Res (List Name × Out × Bool))
            else if children.isEmpty then .ok (key d :: done, (Out.fprints w (o, false) (declare d)).1, (Out.fprints w (o, false) (declare d)).2)
            else
              (generateAllTo (generateTo env key declare builder w n) children (key d :: done) (Out.fprints w (o, false) (declare d)).1).bind
                fun (done, o1, e) =>
                if e then .ok (done, o1, true)
                else
                  (nodeIDs env children).bind fun ids =>
                    .ok (done, (Out.fprints w (o1, (Out.fprints w (o, false) (declare d)).2) (assignWrites builder d.id field ids)).1,
                      (Out.fprints w (o1, (Out.fprints w (o, false) (declare d)).2) (assignWrites builder d.id field ids)).2)) = .ok (done', o', e) →
          WroteStmts builder w o
            (if done.contains (key d) then .ok ([], done)
            else
              (generateAll (generate env key lit n) children (key d :: done)).bind fun (ss, done) =>
                if children.isEmpty then .ok (.declare d.id (lit d) :: ss, done)
                else
                  (nodeIDs env children).bind fun ids =>
                    .ok (.declare d.id (lit d) :: ss ++ [.assign d.id field ids], done)) done' o' e := by
        intro field children h
        by_cases hc : done.contains (key d)
        · rw [if_pos hc] at h ⊢
          cases h
          exact ⟨Nat.le_refl _, by simpa using Fine.refl, fun _ => ⟨[], rfl, (Out.adds_nil o).symm⟩⟩
        · rw [if_neg hc] at h ⊢
          generalize Out.fprints w (o, false) (declare d) = x at hx h
          obtain ⟨o1, e1⟩ := x
          by_cases he : children.isEmpty
          · rw [if_pos he] at h
            cases h
            refine ⟨hx.le, hx.fine, fun hf => ?_⟩
            have : children = [] := by simpa using he
            subst this
            refine ⟨[.declare d.id (lit d)], rfl, ?_⟩
            rw [hx.all hf, hd]
            simp
          · rw [if_neg he] at h
            cases hg : generateAllTo (generateTo env key declare builder w n) children (key d :: done) o1 with
            | panic => rw [hg] at h; cases h
            | oof => rw [hg] at h; cases h
            | ok y =>
              obtain ⟨done2, o2, e2⟩ := y
              have h2 := generateAllTo_wrote (generateTo_wrote hd n) children _ _ _ _ _ hg
              rw [hg] at h
              simp only [Res.bind] at h
              cases e2 with
              | true =>
                simp only [if_true] at h
                cases h
                refine ⟨Nat.le_trans hx.le h2.le, ⟨fun hf => absurd hf (by simp), fun hf => ?_⟩, fun hf => absurd hf (by simp)⟩
                exact h2.fine.2 ((Fine.split hx.le h2.le).1 hf).2
              | false =>
                simp only [Bool.false_eq_true, if_false] at h
                cases hi : nodeIDs env children with
                | panic => rw [hi] at h; cases h
                | oof => rw [hi] at h; cases h
                | ok ids =>
                  rw [hi] at h
                  simp only at h
                  cases e1 with
                  | true =>
                    rw [Out.fprints_error] at h
                    cases h
                    refine ⟨Nat.le_trans hx.le h2.le, ⟨fun hf => absurd hf (by simp), fun hf => ?_⟩, fun hf => absurd hf (by simp)⟩
                    exact hx.fine.2 ((Fine.split hx.le h2.le).1 hf).1
                  | false =>
                    have h3 := Out.fprints_wrote w (assignWrites builder d.id field ids) o2
                    generalize Out.fprints w (o2, false) (assignWrites builder d.id field ids) = z at h3 h
                    obtain ⟨o3, e3⟩ := z
                    cases h
                    refine ⟨Nat.le_trans hx.le (Nat.le_trans h2.le h3.le), ?_, fun hf => ?_⟩
                    · refine h3.fine.trans ?_
                      rw [Fine.split hx.le (Nat.le_trans h2.le h3.le), Fine.split h2.le h3.le]
                      exact ⟨fun h => ⟨hx.fine.1 rfl, h2.fine.1 rfl, h⟩, fun h => h.2.2⟩
                    · obtain ⟨ss, hs, ho⟩ := h2.all rfl
                      refine ⟨.declare d.id (lit d) :: ss ++ [.assign d.id field ids], ?_, ?_⟩
                      · rw [hs]
                        simp only [Res.bind]
                        rw [if_neg he]
                      · have h3a : o3 = o2.adds (assignWrites builder d.id field ids) := h3.all hf
                        have hxa : o1 = o.adds (declare d) := hx.all rfl
                        rw [h3a, ho, hxa, Out.adds_adds, Out.adds_adds, hd]
                        simp [stmtWrites]
      cases hk : d.kind with
      | char neg cs rs =>
        rw [hk] at h
        simp only at h ⊢
        generalize Out.fprints w (o, false) (declare d) = x at hx h
        cases h
        exact ⟨hx.le, hx.fine, fun hf => ⟨[.declare d.id (lit d)], rfl, by rw [hx.all hf, hd]; simp⟩⟩
      | choice options =>
        rw [hk] at h
        exact go .options options h
      | seq items ranges allChars =>
        rw [hk] at h
        exact go .items items h

theorem generateAllTo_ok {rec : Ptr → List Name → Out → Res (List Name × Out × Bool)} {rec' : Ptr → List Name → Res (List Stmt × List Name)}
    (hrec : ∀ p done o done' o' e, rec p done o = .ok (done', o', e) → WroteStmts builder w o (rec' p done) done' o' e)
    (hok : ∀ p done o r, rec' p done = .ok r → ∃ x, rec p done o = .ok x) :
    ∀ (ps : List Ptr) (done : List Name) (o : Out) (r : List Stmt × List Name), generateAll rec' ps done = .ok r →
      ∃ x, generateAllTo rec ps done o = .ok x
  | [], done, o, _, _ => ⟨_, rfl⟩
  | p :: ps, done, o, r, h => by
    unfold generateAll at h
    cases hr : rec' p done with
    | panic => rw [hr] at h; cases h
    | oof => rw [hr] at h; cases h
    | ok y =>
      obtain ⟨ss, done1⟩ := y
      rw [hr] at h
      simp only [Res.bind] at h
      obtain ⟨⟨done2, o2, e2⟩, hx⟩ := hok p done o _ hr
      unfold generateAllTo
      rw [hx]
      simp only [Res.bind]
      cases e2 with
      | true => exact ⟨_, rfl⟩
      | false =>
        obtain ⟨ss', hs, _⟩ := (hrec _ _ _ _ _ _ hx).all rfl
        rw [hr] at hs
        cases hs
        simp only [Bool.false_eq_true, if_false]
        cases hg : generateAll rec' ps done1 with
        | panic => rw [hg] at h; cases h
        | oof => rw [hg] at h; cases h
        | ok z => exact generateAllTo_ok hrec hok ps done1 o2 z hg

theorem generateTo_ok {declare : PDef → List (List Rune)} (hd : ∀ d, declare d = stmtWrites builder (.declare d.id (lit d))) :
    ∀ (n : Nat) (p : Ptr) (done : List Name) (o : Out) (r : List Stmt × List Name), generate env key lit n p done = .ok r →
      ∃ x, generateTo env key declare builder w n p done o = .ok x
  | 0, _, _, _, _, h => by cases h
  | n + 1, p, done, o, r, h => by
    unfold generate at h
    unfold generateTo
    cases hp : env.defs[p]? with
    | none => rw [hp] at h; cases h
    | some d =>
      rw [hp] at h
      simp only at h ⊢
      have go : ∀ (field : Field) (children : List Ptr),
          (if done.contains (key d) then .ok ([], done)
            else
              (generateAll (generate env key lit n) children (key d :: done)).bind fun (ss, done) =>
                if children.isEmpty then .ok (.declare d.id (lit d) :: ss, done)
                else
                  (nodeIDs env children).bind fun ids =>
                    .ok (.declare d.id (lit d) :: ss ++ [.assign d.id field ids], done)) = .ok r → ∃ z,
          (if done.contains (key d) then (.ok (done, o, false) : Res (List Name × Out × Bool))
            else if children.isEmpty then .ok (key d :: done, (Out.fprints w (o, false) (declare d)).1, (Out.fprints w (o, false) (declare d)).2)
            else
              (generateAllTo (generateTo env key declare builder w n) children (key d :: done) (Out.fprints w (o, false) (declare d)).1).bind
                fun (done, o1, e) =>
                if e then .ok (done, o1, true)
                else
                  (nodeIDs env children).bind fun ids =>
                    .ok (done, (Out.fprints w (o1, (Out.fprints w (o, false) (declare d)).2) (assignWrites builder d.id field ids)).1,
                      (Out.fprints w (o1, (Out.fprints w (o, false) (declare d)).2) (assignWrites builder d.id field ids)).2)) = .ok z := by
        intro field children h
        by_cases hc : done.contains (key d)
        · rw [if_pos hc]
          exact ⟨_, rfl⟩
        · rw [if_neg hc] at h ⊢
          by_cases he : children.isEmpty
          · rw [if_pos he]
            exact ⟨_, rfl⟩
          · rw [if_neg he]
            cases hg : generateAll (generate env key lit n) children (key d :: done) with
            | panic => rw [hg] at h; cases h
            | oof => rw [hg] at h; cases h
            | ok y =>
              obtain ⟨⟨done2, o2, e2⟩, hx⟩ := generateAllTo_ok (generateTo_wrote (w := w) hd n) (generateTo_ok hd n) children _
                (Out.fprints w (o, false) (declare d)).1 _ hg
              rw [hx]
              rw [hg] at h
              simp only [Res.bind] at h ⊢
              rw [if_neg he] at h
              cases e2 with
              | true => exact ⟨_, rfl⟩
              | false =>
                simp only [Bool.false_eq_true, if_false]
                cases hi : nodeIDs env children with
                | panic => rw [hi] at h; cases h
                | oof => rw [hi] at h; cases h
                | ok ids => exact ⟨_, rfl⟩
      cases hk : d.kind with
      | char neg cs rs => exact ⟨_, rfl⟩
      | choice options =>
        rw [hk] at h
        exact go .options options h
      | seq items ranges allChars =>
        rw [hk] at h
        exact go .items items h

end

theorem generateAll_append {rec : Ptr → List Name → Res (List Stmt × List Name)} {q : Ptr} :
    ∀ {ps : List Ptr} {done done' done'' : List Name} {ss ss' : List Stmt}, generateAll rec ps done = .ok (ss, done') →
      rec q done' = .ok (ss', done'') → generateAll rec (ps ++ [q]) done = .ok (ss ++ ss', done'')
  | [], done, done', done'', ss, ss', h, h' => by
    cases h
    simp only [List.nil_append, generateAll]
    rw [h']
    simp [Res.bind]
  | p :: ps, done, done', done'', ss, ss', h, h' => by
    unfold generateAll at h
    rw [List.cons_append]
    unfold generateAll
    cases hr : rec p done with
    | panic => rw [hr] at h; cases h
    | oof => rw [hr] at h; cases h
    | ok x =>
      obtain ⟨s1, d1⟩ := x
      rw [hr] at h
      simp only [Res.bind] at h ⊢
      cases hg : generateAll rec ps d1 with
      | panic => rw [hg] at h; cases h
      | oof => rw [hg] at h; cases h
      | ok y =>
        obtain ⟨s2, d2⟩ := y
        rw [hg] at h
        cases h
        rw [generateAll_append hg h']
        simp only [List.append_assoc]

theorem generateAll_append_inv {rec : Ptr → List Name → Res (List Stmt × List Name)} {q : Ptr} :
    ∀ {ps : List Ptr} {done : List Name} {r : List Stmt × List Name}, generateAll rec (ps ++ [q]) done = .ok r →
      ∃ ss done' ss' done'', generateAll rec ps done = .ok (ss, done') ∧ rec q done' = .ok (ss', done'')
  | [], done, r, h => by
    rw [List.nil_append] at h
    unfold generateAll at h
    cases hr : rec q done with
    | panic => rw [hr] at h; cases h
    | oof => rw [hr] at h; cases h
    | ok x => exact ⟨[], done, x.1, x.2, rfl, hr⟩
  | p :: ps, done, r, h => by
    rw [List.cons_append] at h
    unfold generateAll at h ⊢
    cases hr : rec p done with
    | panic => rw [hr] at h; cases h
    | oof => rw [hr] at h; cases h
    | ok x =>
      obtain ⟨s1, d1⟩ := x
      rw [hr] at h
      simp only [Res.bind] at h ⊢
      cases hg : generateAll rec (ps ++ [q]) d1 with
      | panic => rw [hg] at h; cases h
      | oof => rw [hg] at h; cases h
      | ok y =>
        obtain ⟨ss, done', ss', done'', h1, h2⟩ := generateAll_append_inv hg
        rw [h1]
        exact ⟨s1 ++ ss, done', ss', done'', rfl, h2⟩

/-- What the rest of the code in front of and behind the statements is. -/
structure Code where
  keywordStmts : List Stmt
  rootStmts : List Stmt
  builderStmts : List Stmt
  keywords : List Nat
  root : Nat

def Code.program (c : Code) : Program :=
  { parsers := c.keywordStmts ++ c.rootStmts, builders := c.builderStmts, keywords := c.keywords, rootParser := c.root, rootBuilder := c.root }

/-- The text of the statements about the parsers or builders. -/
def stmtsText (builder : Bool) (ss : List Stmt) : List Rune := (ss.flatMap (stmtWrites builder)).flatten

theorem generateCode_wrote {env : Env} {root : Ptr} {k : GenConstants} {opts : GeneratorOptions} {w : Writer} {o : Out} {e : Bool}
    (h : generateCode env root k opts w = .ok (o, e)) :
    (e = true → ∃ i, i < o.writes ∧ w i = true) ∧
    (e = false → ∃ c : Code, generateProgram env root = .ok c.program ∧
      (∃ n m j, o.text = ((headWrites k opts).take n).flatten ++ stmtsText false c.keywordStmts ++ ([runes "\n"].take m).flatten ++
        stmtsText false c.rootStmts ++ stmtsText true c.builderStmts ++ ((closingWrites c.keywords c.root c.root).take j).flatten) ∧
      ((∀ i, i < o.writes → w i = false) → o.text = (headWrites k opts).flatten ++ stmtsText false c.keywordStmts ++ runes "\n" ++
        stmtsText false c.rootStmts ++ stmtsText true c.builderStmts ++ (closingWrites c.keywords c.root c.root).flatten)) := by
  have notFine : ∀ {a b c : Nat}, b ≤ c → ¬ Fine w a b → ∃ i, i < c ∧ w i = true := by
    intro a b c hbc hf
    apply Classical.byContradiction
    intro hn
    apply hf
    intro i _ hi
    cases hw : w i with
    | false => rfl
    | true => exact absurd ⟨i, by omega, hw⟩ hn
  unfold generateCode at h
  simp only at h
  have hx := Out.fprints_wrote w (headWrites k opts) {}
  generalize Out.fprints w ({}, false) (headWrites k opts) = x at hx h
  obtain ⟨o1, e1⟩ := x
  have hpar : ∀ d : PDef, parserWrites d.id d.parserLit = stmtWrites false (.declare d.id d.parserLit) := fun _ => rfl
  have hbui : ∀ d : PDef, builderWrites d.id d.builderLit = stmtWrites true (.declare d.id d.builderLit) := fun _ => rfl
  cases hk : generateAllTo (generateTo env PDef.pname (fun d => parserWrites d.id d.parserLit) false w (env.defs.length + 1)) env.keywords
      [] o1 with
  | panic => rw [hk] at h; cases h
  | oof => rw [hk] at h; cases h
  | ok y =>
    obtain ⟨done2, o2, e2⟩ := y
    have h2 := generateAllTo_wrote (generateTo_wrote hpar (env.defs.length + 1)) _ _ _ _ _ _ hk
    rw [hk] at h
    simp only [Res.bind] at h
    cases e2 with
    | true =>
      simp only [if_true] at h
      cases h
      exact ⟨fun _ => notFine (Nat.le_refl _) fun hf => absurd (h2.fine.2 hf) (by simp), fun hf => absurd hf (by simp)⟩
    | false =>
      simp only [Bool.false_eq_true, if_false] at h
      have h3 : ∃ m, (Out.fprint w (o2, e1) (runes "\n")).1.text = o2.text ++ ([runes "\n"].take m).flatten ∧
          o2.writes ≤ (Out.fprint w (o2, e1) (runes "\n")).1.writes ∧
          (e1 = false → Wrote w o2 [runes "\n"] (Out.fprint w (o2, e1) (runes "\n"))) ∧
          (e1 = true → (Out.fprint w (o2, e1) (runes "\n")).2 = true) := by
        cases e1 with
        | true => exact ⟨0, by simp [Out.fprint], Nat.le_refl _, fun h => absurd h (by simp), fun _ => rfl⟩
        | false =>
          have := Out.fprints_wrote w [runes "\n"] o2
          obtain ⟨n, _, hn⟩ := this.some
          exact ⟨n, hn, this.le, fun _ => this, fun h => absurd h (by simp)⟩
      generalize Out.fprint w (o2, e1) (runes "\n") = x3 at h3 h
      obtain ⟨o3, e3⟩ := x3
      obtain ⟨m, hm, hle3, h3, h3'⟩ := h3
      simp only at hm hle3 h3' h
      cases hr : generateTo env PDef.pname (fun d => parserWrites d.id d.parserLit) false w (env.defs.length + 1) root done2 o3 with
      | panic => rw [hr] at h; cases h
      | oof => rw [hr] at h; cases h
      | ok y =>
        obtain ⟨done4, o4, e4⟩ := y
        have h4 := generateTo_wrote hpar _ _ _ _ _ _ _ hr
        rw [hr] at h
        simp only at h
        cases e4 with
        | true =>
          simp only [if_true] at h
          cases h
          exact ⟨fun _ => notFine (Nat.le_refl _) fun hf => absurd (h4.fine.2 hf) (by simp), fun hf => absurd hf (by simp)⟩
        | false =>
          simp only [Bool.false_eq_true, if_false] at h
          cases hb : generateTo env PDef.name (fun d => builderWrites d.id d.builderLit) true w (env.defs.length + 1) root [] o4 with
          | panic => rw [hb] at h; cases h
          | oof => rw [hb] at h; cases h
          | ok y =>
            obtain ⟨done5, o5, e5⟩ := y
            have h5 := generateTo_wrote hbui _ _ _ _ _ _ _ hb
            rw [hb] at h
            simp only at h
            cases e5 with
            | true =>
              simp only [if_true] at h
              cases h
              exact ⟨fun _ => notFine (Nat.le_refl _) fun hf => absurd (h5.fine.2 hf) (by simp), fun hf => absurd hf (by simp)⟩
            | false =>
              simp only [Bool.false_eq_true, if_false] at h
              cases hks : nodeIDs env env.keywords with
              | panic => rw [hks] at h; cases h
              | oof => rw [hks] at h; cases h
              | ok keywords =>
                rw [hks] at h
                simp only at h
                cases hrs : nodeIDs env [root] with
                | panic => rw [hrs] at h; cases h
                | oof => rw [hrs] at h; cases h
                | ok rs =>
                  rw [hrs] at h
                  simp only at h
                  obtain ⟨ss2, hs2, ho2⟩ := h2.all rfl
                  obtain ⟨ss4, hs4, ho4⟩ := h4.all rfl
                  obtain ⟨ss5, hs5, ho5⟩ := h5.all rfl
                  have h6 : ∃ j, (Out.fprints w (o5, e3) (closingWrites keywords (rs.headD 0) (rs.headD 0))).1.text =
                        o5.text ++ ((closingWrites keywords (rs.headD 0) (rs.headD 0)).take j).flatten ∧
                      o5.writes ≤ (Out.fprints w (o5, e3) (closingWrites keywords (rs.headD 0) (rs.headD 0))).1.writes ∧
                      (e3 = false → Wrote w o5 (closingWrites keywords (rs.headD 0) (rs.headD 0))
                        (Out.fprints w (o5, e3) (closingWrites keywords (rs.headD 0) (rs.headD 0)))) := by
                    cases e3 with
                    | true =>
                      rw [Out.fprints_error]
                      exact ⟨0, by simp, Nat.le_refl _, fun h => absurd h (by simp)⟩
                    | false =>
                      have := Out.fprints_wrote w (closingWrites keywords (rs.headD 0) (rs.headD 0)) o5
                      obtain ⟨n, _, hn⟩ := this.some
                      exact ⟨n, hn, this.le, fun _ => this⟩
                  generalize Out.fprints w (o5, e3) (closingWrites keywords (rs.headD 0) (rs.headD 0)) = x6 at h6 h
                  obtain ⟨j, hj, hle6, h6⟩ := h6
                  cases h
                  refine ⟨fun hf => absurd hf (by simp), fun _ => ⟨⟨ss2, ss4, ss5, keywords, rs.headD 0⟩, ?_, ?_, ?_⟩⟩
                  · unfold generateProgram
                    simp only
                    rw [generateAll_append hs2 hs4]
                    simp only [Res.bind]
                    rw [hs5]
                    simp only
                    rw [hks]
                    simp only
                    rw [hrs]
                    rfl
                  · obtain ⟨n, _, hn⟩ := hx.some
                    simp only at hn
                    refine ⟨n, m, j, ?_⟩
                    rw [hj, ho5]
                    simp only [Out.adds]
                    rw [ho4]
                    simp only [Out.adds]
                    rw [hm, ho2]
                    simp only [Out.adds]
                    rw [hn]
                    rfl
                  · intro hf
                    have hle1 : ({} : Out).writes ≤ o1.writes := hx.le
                    have hl2 := h2.le
                    have hl4 := h4.le
                    have hl5 := h5.le
                    have he1 : e1 = false := hx.fine.2 fun i _ hi => hf i (by simp only at hi; omega)
                    have hw3 := h3 he1
                    have he3 : e3 = false := hw3.fine.2 fun i _ hi => hf i (by simp only at hi; omega)
                    have hw6 := h6 he3
                    have he6 : x6.2 = false := hw6.fine.2 fun i _ hi => hf i hi
                    rw [hw6.all he6, ho5, ho4]
                    have := hw3.all he3
                    simp only at this
                    rw [this, ho2]
                    have := hx.all he1
                    simp only at this
                    rw [this]
                    simp [Out.adds, stmtsText]

theorem generateCode_ok {env : Env} {root : Ptr} {p : Program} (k : GenConstants) (opts : GeneratorOptions) (w : Writer)
    (h : generateProgram env root = .ok p) : ∃ x, generateCode env root k opts w = .ok x := by
  have hpar : ∀ d : PDef, parserWrites d.id d.parserLit = stmtWrites false (.declare d.id d.parserLit) := fun _ => rfl
  have hbui : ∀ d : PDef, builderWrites d.id d.builderLit = stmtWrites true (.declare d.id d.builderLit) := fun _ => rfl
  unfold generateProgram at h
  simp only at h
  cases hg : generateAll (generate env PDef.pname PDef.parserLit (env.defs.length + 1)) (env.keywords ++ [root]) [] with
  | panic => rw [hg] at h; cases h
  | oof => rw [hg] at h; cases h
  | ok x =>
    rw [hg] at h
    obtain ⟨ss, done, ss', done', h1, h2⟩ := generateAll_append_inv hg
    simp only [Res.bind] at h
    cases hb : generate env PDef.name PDef.builderLit (env.defs.length + 1) root [] with
    | panic => rw [hb] at h; cases h
    | oof => rw [hb] at h; cases h
    | ok y =>
      rw [hb] at h
      simp only at h
      cases hks : nodeIDs env env.keywords with
      | panic => rw [hks] at h; cases h
      | oof => rw [hks] at h; cases h
      | ok keywords =>
        rw [hks] at h
        simp only at h
        cases hrs : nodeIDs env [root] with
        | panic => rw [hrs] at h; cases h
        | oof => rw [hrs] at h; cases h
        | ok rs =>
          unfold generateCode
          simp only
          obtain ⟨⟨done2, o2, e2⟩, hx⟩ := generateAllTo_ok (generateTo_wrote (w := w) hpar (env.defs.length + 1))
            (generateTo_ok hpar (env.defs.length + 1)) _ _ (Out.fprints w ({}, false) (headWrites k opts)).1 _ h1
          have hw := generateAllTo_wrote (generateTo_wrote (w := w) hpar (env.defs.length + 1)) _ _ _ _ _ _ hx
          rw [hx]
          simp only [Res.bind]
          cases e2 with
          | true => exact ⟨_, rfl⟩
          | false =>
            obtain ⟨_, hs, _⟩ := hw.all rfl
            rw [h1] at hs
            cases hs
            simp only [Bool.false_eq_true, if_false]
            generalize Out.fprint w (o2, (Out.fprints w ({}, false) (headWrites k opts)).2) (runes "\n") = x3
            obtain ⟨⟨done4, o4, e4⟩, hx4⟩ := generateTo_ok (w := w) hpar _ _ _ x3.1 _ h2
            rw [hx4]
            simp only
            cases e4 with
            | true => exact ⟨_, rfl⟩
            | false =>
              simp only [Bool.false_eq_true, if_false]
              obtain ⟨⟨done5, o5, e5⟩, hx5⟩ := generateTo_ok (w := w) hbui _ _ _ o4 _ hb
              rw [hx5]
              simp only
              cases e5 with
              | true => exact ⟨_, rfl⟩
              | false =>
                rw [hks, hrs]
                exact ⟨_, rfl⟩

end Treerack
