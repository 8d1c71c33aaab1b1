import Verif.Proofs.GoLex

/-
Reading the tokens of the generated statements.
-/

namespace Treerack
open Spec

/-! ### The tokens of the parts of a statement -/

def intToks : Int → List Tok
  | .ofNat n => [.int n]
  | .negSucc n => [.sym 45, .int (n + 1)]

def pairToks (x : Int × Int) : List Tok := .sym 123 :: intToks x.1 ++ .sym 44 :: intToks x.2 ++ [.sym 125]

/-- Items, each followed by a comma. -/
def listToks {α : Type} (item : α → List Tok) (l : List α) : List Tok := l.flatMap fun x => item x ++ [.sym 44]

def valueToks : Value → List Tok
  | .int z => intToks z
  | .str t => [.str t]
  | .yes => [word "true"]
  | .ints ty l => [.sym 91, .sym 93, .word ty, .sym 123] ++ listToks intToks l ++ [.sym 125]
  | .pairs ty l => [.sym 91, .sym 93, .sym 91, .sym 93, .word ty, .sym 123] ++ listToks pairToks l ++ [.sym 125]

def fieldToks (f : List Rune × Value) : List Tok := .word f.1 :: .sym 58 :: valueToks f.2

def varTok (builder : Bool) (n : Nat) : Tok := .word ((if builder then 98 else 112) :: itoa n)

def refToks (builder : Bool) (n : Nat) : List Tok := [.sym 38, varTok builder n]

/-- The name of the type of a literal. -/
def litType (builder : Bool) : LitKind → String
  | .char _ _ _ => if builder then "charBuilder" else "charParser"
  | .choice => if builder then "choiceBuilder" else "choiceParser"
  | .seq _ _ => if builder then "sequenceBuilder" else "sequenceParser"

def asInts (l : List Nat) : List Int := l.map Int.ofNat

def asPairs (l : List (Nat × Nat)) : List (Int × Int) := l.map fun x => (Int.ofNat x.1, Int.ofNat x.2)

def optField {α : Type} (f : String) (v : List α → Value) : List α → List (List Rune × Value)
  | [] => []
  | l => [(runes f, v l)]

def flagField (f : String) (b : Bool) : List (List Rune × Value) := if b then [(runes f, .yes)] else []

def idFields (l : Lit) : List (List Rune × Value) :=
  [(runes "id", .int (Int.ofNat l.id)), (runes "commit", .int (Int.ofNat l.commit.value))]

/-- Whether the name is printed. -/
def printsName (builder : Bool) (c : Commit) : Bool := if builder then !c.alias else c.userDefined

def nameField (builder : Bool) (l : Lit) : List (List Rune × Value) :=
  if printsName builder l.commit then [(runes "name", .str l.name)] else []

/-- The fields of a literal. -/
def litFields (builder : Bool) (l : Lit) : List (List Rune × Value) :=
  match l.kind with
  | .char not chars ranges =>
    if builder then [] else
    [(runes "id", .int (Int.ofNat l.id))] ++ flagField "not" not ++ optField "chars" (.ints (runes "rune")) (asInts chars) ++
      optField "ranges" (.pairs (runes "rune")) (asPairs ranges)
  | .choice => idFields l ++ nameField builder l ++ optField "generalizations" (.ints (runes "int")) (asInts l.gens)
  | .seq ranges allChars => idFields l ++ nameField builder l ++ flagField "allChars" allChars ++
      optField "ranges" (.pairs (runes "int")) ranges ++ optField "generalizations" (.ints (runes "int")) (asInts l.gens)

def stmtToks (builder : Bool) : Stmt → List Tok
  | .declare n l => [word "var", varTok builder n, .sym 61, word (litType builder l.kind), .sym 123] ++
      listToks fieldToks (litFields builder l) ++ [.sym 125, .sym 59]
  | .assign n field refs => [varTok builder n, .sym 46, word (match field with | .options => "options" | .items => "items"),
      .sym 61, .sym 91, .sym 93, word (if builder then "builder" else "parser"), .sym 123] ++
      listToks (refToks builder) refs ++ [.sym 125, .sym 59]

/-! ### Reading them -/

theorem readInt_toks (z : Int) (ts : List Tok) : readInt (intToks z ++ ts) = some (z, ts) := by
  cases z with
  | ofNat n => rfl
  | negSucc n => rfl

theorem readPair_toks (x : Int × Int) (ts : List Tok) : readPair (pairToks x ++ ts) = some (x, ts) := by
  unfold pairToks
  simp only [List.cons_append, List.append_assoc, List.nil_append, readPair, readInt_toks, Option.bind_some]

theorem readList_toks {α : Type} {item : List Tok → Option (α × List Tok)} {toks : α → List Tok} :
    ∀ (l : List α) (n : Nat) (ts : List Tok), l.length < n → (∀ x ∈ l, ∀ ts, item (toks x ++ ts) = some (x, ts)) →
    (∀ x ∈ l, ∃ t r, toks x = t :: r ∧ t ≠ .sym 125) →
    readList item n (listToks toks l ++ .sym 125 :: ts) = some (l, ts)
  | l, 0, _, h, _, _ => absurd h (Nat.not_lt_zero _)
  | [], n + 1, ts, _, _, _ => rfl
  | x :: l, n + 1, ts, h, h1, h2 => by
    obtain ⟨t, r, ht, hne⟩ := h2 x (by simp)
    have hi := h1 x (by simp) (.sym 44 :: (listToks toks l ++ .sym 125 :: ts))
    have hr := readList_toks l n ts (by simp only [List.length_cons] at h; omega) (fun y hy => h1 y (by simp [hy]))
      fun y hy => h2 y (by simp [hy])
    have he : listToks toks (x :: l) ++ .sym 125 :: ts = toks x ++ (.sym 44 :: (listToks toks l ++ .sym 125 :: ts)) := by
      simp [listToks]
    rw [he]
    have : readList item (n + 1) (toks x ++ (.sym 44 :: (listToks toks l ++ .sym 125 :: ts))) =
        (item (toks x ++ (.sym 44 :: (listToks toks l ++ .sym 125 :: ts)))).bind fun x =>
          match x.2 with
          | .sym 44 :: ts => (readList item n ts).map fun y => (x.1 :: y.1, y.2)
          | .sym 125 :: ts => some ([x.1], ts)
          | _ => none := by
      rw [ht, List.cons_append]
      cases t with
      | sym c =>
        have hc : c ≠ 125 := fun h => hne (by rw [h])
        rw [readList.eq_3]
        · rfl
        · intro ts' h
          cases h
          exact hc rfl
      | word _ => rfl
      | int _ => rfl
      | str _ => rfl
    rw [this, hi]
    simp only [Option.bind_some, hr, Option.map_some]

theorem intToks_head (z : Int) : ∃ t r, intToks z = t :: r ∧ t ≠ .sym 125 := by
  cases z with
  | ofNat n => exact ⟨_, _, rfl, by simp⟩
  | negSucc n => exact ⟨_, _, rfl, by decide⟩

theorem pairToks_head (x : Int × Int) : ∃ t r, pairToks x = t :: r ∧ t ≠ .sym 125 := ⟨_, _, rfl, by decide⟩

/-- The number of items in a value. -/
def Value.size : Value → Nat
  | .ints _ l => l.length
  | .pairs _ l => l.length
  | _ => 0

theorem readValue_toks (v : Value) (fuel : Nat) (ts : List Tok) (h : Value.size v < fuel) :
    readValue fuel (valueToks v ++ ts) = some (v, ts) := by
  cases v with
  | int z =>
    cases z with
    | ofNat n => rfl
    | negSucc n => rfl
  | str t => rfl
  | yes => rfl
  | ints ty l =>
    have := readList_toks l fuel ts h (fun x _ => readInt_toks x) fun x _ => intToks_head x
    simp only [valueToks, List.cons_append, List.append_assoc, List.nil_append, readValue, this, Option.map_some]
  | pairs ty l =>
    have := readList_toks l fuel ts h (fun x _ => readPair_toks x) fun x _ => pairToks_head x
    simp only [valueToks, List.cons_append, List.append_assoc, List.nil_append, readValue, this, Option.map_some]

theorem readField_toks (f : List Rune × Value) (fuel : Nat) (ts : List Tok) (h : Value.size f.2 < fuel) :
    readField fuel (fieldToks f ++ ts) = some (f, ts) := by
  simp only [fieldToks, List.cons_append, readField, readValue_toks f.2 fuel ts h, Option.map_some]

theorem readVar_itoa (builder : Bool) (n : Nat) : readVar ((if builder then 98 else 112) :: itoa n) = some (builder, n) := by
  unfold readVar
  cases builder <;> simp [isDecimal_itoa, decimal_itoa]

theorem readRef_toks (builder : Bool) (n : Nat) (ts : List Tok) : readRef builder (refToks builder n ++ ts) = some (n, ts) := by
  simp only [refToks, varTok, List.cons_append, List.nil_append, readRef, readVar_itoa, Option.bind_some, if_true]

theorem refToks_head (builder : Bool) (n : Nat) : ∃ t r, refToks builder n = t :: r ∧ t ≠ .sym 125 := ⟨_, _, rfl, by decide⟩

/-! ### Literals -/

theorem commitOf_value (c : Commit) : commitOf c.value = c := by
  rcases c with ⟨a, b, c, d, e, f, g, h⟩
  revert a b c d e f g h
  decide

/-- The fields that are not printed have the zero value. -/
structure PrintedLit (builder : Bool) (l : Lit) : Prop where
  name : printsName builder l.commit = false → l.name = []
  char : ∀ neg cs rs, l.kind = .char neg cs rs → l.commit = {} ∧ l.gens = [] ∧ l.name = [] ∧
    (builder = true → l.id = 0 ∧ neg = false ∧ cs = [] ∧ rs = [])

theorem toNat_asInts (l : List Nat) : (asInts l).map Int.toNat = l := by
  simp only [asInts, List.map_map]
  exact List.map_id'' (fun _ => rfl) l

theorem toNat_asPairs (l : List (Nat × Nat)) : ((asPairs l).map fun z => (z.1.toNat, z.2.toNat)) = l := by
  simp only [asPairs, List.map_map]
  exact List.map_id'' (fun _ => rfl) l

theorem asInts_nonneg (l : List Nat) : ∀ z ∈ asInts l, 0 ≤ z := by
  intro z h
  obtain ⟨n, -, rfl⟩ := List.mem_map.1 h
  exact Int.natCast_nonneg n

theorem asPairs_nonneg (l : List (Nat × Nat)) : ∀ z ∈ asPairs l, 0 ≤ z.1 ∧ 0 ≤ z.2 := by
  intro z h
  obtain ⟨n, -, rfl⟩ := List.mem_map.1 h
  exact ⟨Int.natCast_nonneg _, Int.natCast_nonneg _⟩

theorem setField_id {builder : Bool} {l : Lit} {n : Nat} :
    setField builder l (runes "id", .int (Int.ofNat n)) = some { l with id := n } := by
  simp only [setField, if_true]

theorem setField_commit {builder : Bool} {l : Lit} {n : Nat} (h : ∀ neg cs rs, l.kind ≠ .char neg cs rs) :
    setField builder l (runes "commit", .int (Int.ofNat n)) = some { l with commit := commitOf n } := by
  have h1 : runes "commit" ≠ runes "id" := by decide
  simp only [setField, if_neg h1]
  cases hk : l.kind with
  | char neg cs rs => exact absurd hk (h neg cs rs)
  | choice => simp
  | seq rs ac => simp

theorem setField_name {builder : Bool} {l : Lit} {t : List Rune} :
    setField builder l (runes "name", .str t) = some { l with name := t } := by
  simp only [setField, if_true]

theorem setField_not {l : Lit} {neg : Bool} {cs : List Rune} {rs : List (Rune × Rune)} (h : l.kind = .char neg cs rs) :
    setField false l (runes "not", .yes) = some { l with kind := .char true cs rs } := by
  simp only [setField, h, and_self, if_true]

theorem setField_chars {l : Lit} {neg : Bool} {cs cs' : List Rune} {rs : List (Rune × Rune)} (h : l.kind = .char neg cs rs) :
    setField false l (runes "chars", .ints (runes "rune") (asInts cs')) = some { l with kind := .char neg cs' rs } := by
  simp only [setField, h, true_and, if_pos (asInts_nonneg cs'), toNat_asInts]

theorem setField_charRanges {l : Lit} {neg : Bool} {cs : List Rune} {rs rs' : List (Rune × Rune)} (h : l.kind = .char neg cs rs) :
    setField false l (runes "ranges", .pairs (runes "rune") (asPairs rs')) = some { l with kind := .char neg cs rs' } := by
  simp only [setField, h, true_and, if_pos (asPairs_nonneg rs'), toNat_asPairs]

theorem setField_allChars {builder : Bool} {l : Lit} {rs : List (Int × Int)} {ac : Bool} (h : l.kind = .seq rs ac) :
    setField builder l (runes "allChars", .yes) = some { l with kind := .seq rs true } := by
  simp only [setField, h, if_true]

theorem setField_ranges {builder : Bool} {l : Lit} {rs rs' : List (Int × Int)} {ac : Bool} (h : l.kind = .seq rs ac) :
    setField builder l (runes "ranges", .pairs (runes "int") rs') = some { l with kind := .seq rs' ac } := by
  simp only [setField, h, and_self, if_true]

theorem setField_gens {builder : Bool} {l : Lit} {gs : List Nat} (h : ∀ neg cs rs, l.kind ≠ .char neg cs rs) :
    setField builder l (runes "generalizations", .ints (runes "int") (asInts gs)) = some { l with gens := gs } := by
  cases hk : l.kind with
  | char neg cs rs => exact absurd hk (h neg cs rs)
  | choice => simp only [setField, hk, true_and, if_pos (asInts_nonneg gs), toNat_asInts]
  | seq rs ac => simp only [setField, hk, true_and, if_pos (asInts_nonneg gs), toNat_asInts]

/-! The optional fields, from a value where they are not set. -/

theorem fold_not {l : Lit} {cs : List Rune} {rs : List (Rune × Rune)} (h : l.kind = .char false cs rs) (b : Bool) :
    (flagField "not" b).foldlM (setField false) l = some { l with kind := .char b cs rs } := by
  cases b with
  | false => simp only [flagField, Bool.false_eq_true, if_false, List.foldlM_nil, ← h]; rfl
  | true => simp only [flagField, if_true, List.foldlM_cons, List.foldlM_nil, setField_not h]; rfl

theorem fold_chars {l : Lit} {neg : Bool} {rs : List (Rune × Rune)} (h : l.kind = .char neg [] rs) (cs : List Rune) :
    (optField "chars" (.ints (runes "rune")) (asInts cs)).foldlM (setField false) l = some { l with kind := .char neg cs rs } := by
  cases cs with
  | nil => simp only [asInts, List.map_nil, optField, List.foldlM_nil, ← h]; rfl
  | cons c cs =>
    have : optField "chars" (.ints (runes "rune")) (asInts (c :: cs)) = [(runes "chars", .ints (runes "rune") (asInts (c :: cs)))] := rfl
    rw [this, List.foldlM_cons, setField_chars h]
    rfl

theorem fold_charRanges {l : Lit} {neg : Bool} {cs : List Rune} (h : l.kind = .char neg cs []) (rs : List (Rune × Rune)) :
    (optField "ranges" (.pairs (runes "rune")) (asPairs rs)).foldlM (setField false) l = some { l with kind := .char neg cs rs } := by
  cases rs with
  | nil => simp only [asPairs, List.map_nil, optField, List.foldlM_nil, ← h]; rfl
  | cons c rs =>
    have : optField "ranges" (.pairs (runes "rune")) (asPairs (c :: rs)) = [(runes "ranges", .pairs (runes "rune") (asPairs (c :: rs)))] := rfl
    rw [this, List.foldlM_cons, setField_charRanges h]
    rfl

theorem fold_gens {builder : Bool} {l : Lit} (h : ∀ neg cs rs, l.kind ≠ .char neg cs rs) (hg : l.gens = []) (gs : List Nat) :
    (optField "generalizations" (.ints (runes "int")) (asInts gs)).foldlM (setField builder) l = some { l with gens := gs } := by
  cases gs with
  | nil =>
    obtain ⟨name, id, commit, gens, kind⟩ := l
    subst hg
    rfl
  | cons c gs =>
    have : optField "generalizations" (.ints (runes "int")) (asInts (c :: gs)) =
      [(runes "generalizations", .ints (runes "int") (asInts (c :: gs)))] := rfl
    rw [this, List.foldlM_cons, setField_gens h]
    rfl

theorem fold_ranges {builder : Bool} {l : Lit} {ac : Bool} (h : l.kind = .seq [] ac) (rs : List (Int × Int)) :
    (optField "ranges" (.pairs (runes "int")) rs).foldlM (setField builder) l = some { l with kind := .seq rs ac } := by
  cases rs with
  | nil => simp only [optField, List.foldlM_nil, ← h]; rfl
  | cons c rs =>
    have : optField "ranges" (.pairs (runes "int")) (c :: rs) = [(runes "ranges", .pairs (runes "int") (c :: rs))] := rfl
    rw [this, List.foldlM_cons, setField_ranges h]
    rfl

theorem fold_allChars {builder : Bool} {l : Lit} {rs : List (Int × Int)} (h : l.kind = .seq rs false) (b : Bool) :
    (flagField "allChars" b).foldlM (setField builder) l = some { l with kind := .seq rs b } := by
  cases b with
  | false => simp only [flagField, Bool.false_eq_true, if_false, List.foldlM_nil, ← h]; rfl
  | true => simp only [flagField, if_true, List.foldlM_cons, List.foldlM_nil, setField_allChars h]; rfl

theorem fold_name {builder : Bool} {l l' : Lit} (h : l.name = [])
    (hn : printsName builder l'.commit = false → l'.name = []) :
    (nameField builder l').foldlM (setField builder) l = some { l with name := l'.name } := by
  unfold nameField
  split
  · simp only [List.foldlM_cons, List.foldlM_nil, setField_name]; rfl
  · rename_i hc
    rw [hn (by simpa using hc), ← h]
    rfl

theorem fold_id {builder : Bool} {l l' : Lit} (h : ∀ neg cs rs, l.kind ≠ .char neg cs rs) :
    (idFields l').foldlM (setField builder) l = some { l with id := l'.id, commit := l'.commit } := by
  simp only [idFields, List.foldlM_cons, List.foldlM_nil, setField_id]
  show (setField builder { l with id := l'.id } _).bind _ = _
  rw [setField_commit (by exact h), commitOf_value]
  rfl

theorem optField_keys {α : Type} (f : String) (v : List α → Value) (l : List α) :
    (optField f v l).map Prod.fst = if l.isEmpty then [] else [runes f] := by
  cases l <;> rfl

theorem flagField_keys (f : String) (b : Bool) : (flagField f b).map Prod.fst = if b then [runes f] else [] := by
  cases b <;> rfl

theorem nameField_keys (builder : Bool) (l : Lit) : (nameField builder l).map Prod.fst =
    if printsName builder l.commit then [runes "name"] else [] := by
  unfold nameField
  split <;> rfl

theorem litFields_nodup (builder : Bool) (l : Lit) : ((litFields builder l).map Prod.fst).Nodup := by
  unfold litFields
  cases l.kind with
  | char neg cs rs =>
    simp only
    split
    · simp
    · simp only [List.map_append, List.map_cons, List.map_nil, optField_keys, flagField_keys]
      generalize (asInts cs).isEmpty = a
      generalize (asPairs rs).isEmpty = b
      revert neg a b
      decide
  | choice =>
    simp only [List.map_append, optField_keys, nameField_keys, idFields, List.map_cons, List.map_nil]
    generalize (asInts l.gens).isEmpty = a
    generalize printsName builder l.commit = b
    revert a b
    decide
  | seq rs ac =>
    simp only [List.map_append, optField_keys, flagField_keys, nameField_keys, idFields, List.map_cons, List.map_nil]
    generalize (asInts l.gens).isEmpty = a
    generalize printsName builder l.commit = b
    generalize rs.isEmpty = c
    revert a b c ac
    decide

theorem zeroLit_type (builder : Bool) (k : LitKind) : zeroLit builder (runes (litType builder k)) = some { kind := match k with
    | .char _ _ _ => .char false [] []
    | .choice => .choice
    | .seq _ _ => .seq [] false } := by
  have h1 : ∀ b, zeroLit b (runes (if b then "charBuilder" else "charParser")) = some { kind := .char false [] [] } := by decide +kernel
  have h2 : ∀ b, zeroLit b (runes (if b then "choiceBuilder" else "choiceParser")) = some { kind := .choice } := by decide +kernel
  have h3 : ∀ b, zeroLit b (runes (if b then "sequenceBuilder" else "sequenceParser")) = some { kind := .seq [] false } := by decide +kernel
  cases k with
  | char _ _ _ => exact h1 builder
  | choice => exact h2 builder
  | seq _ _ => exact h3 builder

/-- The literal is read as it was printed. -/
theorem literal_fields {builder : Bool} {l : Lit} (h : PrintedLit builder l) :
    literal builder (runes (litType builder l.kind)) (litFields builder l) = some l := by
  unfold literal
  rw [if_pos (litFields_nodup builder l), zeroLit_type, Option.bind_some]
  obtain ⟨name, id, commit, gens, kind⟩ := l
  cases kind with
  | char neg cs rs =>
    obtain ⟨rfl, rfl, rfl, h1⟩ := h.char neg cs rs rfl
    unfold litFields
    cases builder with
    | true =>
      obtain ⟨rfl, rfl, rfl, rfl⟩ := h1 rfl
      rfl
    | false =>
      simp only [Bool.false_eq_true, if_false, List.foldlM_append, List.foldlM_cons, List.foldlM_nil, setField_id]
      simp only [Option.pure_def, Option.bind_eq_bind, Option.bind_some]
      rw [fold_not rfl, Option.bind_some, fold_chars rfl, Option.bind_some, fold_charRanges rfl]
  | choice =>
    unfold litFields
    simp only [List.foldlM_append]
    rw [fold_id (by intro _ _ _ h; cases h)]
    simp only [Option.bind_eq_bind, Option.bind_some]
    rw [fold_name rfl h.name, Option.bind_some, fold_gens (by intro _ _ _ h; cases h) rfl]
  | seq rs ac =>
    unfold litFields
    simp only [List.foldlM_append]
    rw [fold_id (by intro _ _ _ h; cases h)]
    simp only [Option.bind_eq_bind, Option.bind_some]
    rw [fold_name rfl h.name, Option.bind_some, fold_allChars rfl, Option.bind_some, fold_ranges rfl, Option.bind_some,
      fold_gens (by intro _ _ _ h; cases h) rfl]

/-! ### Statements -/

theorem listToks_length {α : Type} (toks : α → List Tok) (l : List α) : l.length ≤ (listToks toks l).length := by
  induction l with
  | nil => simp
  | cons x l ih =>
    simp only [listToks, List.flatMap_cons, List.length_append, List.length_cons, List.length_nil] at *
    omega

theorem listToks_mem {α : Type} {toks : α → List Tok} {l : List α} {x : α} (h : x ∈ l) : (toks x).length ≤ (listToks toks l).length := by
  induction l with
  | nil => cases h
  | cons y l ih =>
    simp only [listToks, List.flatMap_cons, List.length_append, List.length_cons, List.length_nil] at *
    rcases List.mem_cons.1 h with rfl | h
    · omega
    · have := ih h
      omega

theorem Value.size_le (v : Value) : Value.size v ≤ (valueToks v).length := by
  cases v with
  | int z => simp [Value.size]
  | str t => simp [Value.size]
  | yes => simp [Value.size]
  | ints ty l =>
    have := listToks_length intToks l
    simp only [Value.size, valueToks, List.length_append]
    omega
  | pairs ty l =>
    have := listToks_length pairToks l
    simp only [Value.size, valueToks, List.length_append]
    omega

/-- What the statements must fulfil to be read as they were. -/
def PrintedStmt (builder : Bool) : Stmt → Prop
  | .declare _ l => PrintedLit builder l
  | .assign _ _ _ => True

theorem readStmt_toks {builder : Bool} {st : Stmt} (h : PrintedStmt builder st) {fuel : Nat}
    (hf : (stmtToks builder st).length ≤ fuel) (ts : List Tok) :
    readStmt fuel (stmtToks builder st ++ ts) = some ((builder, st), ts) := by
  cases st with
  | declare n l =>
    simp only [stmtToks, List.length_append, List.length_cons, List.length_nil] at hf
    have h1 : readList (readField fuel) fuel (listToks fieldToks (litFields builder l) ++ .sym 125 :: (.sym 59 :: ts)) =
        some (litFields builder l, .sym 59 :: ts) := by
      refine readList_toks _ _ _ ?_ ?_ ?_
      · have := listToks_length fieldToks (litFields builder l)
        omega
      · intro f hm ts
        refine readField_toks f fuel ts ?_
        have h1 := listToks_mem (toks := fieldToks) hm
        have h2 := Value.size_le f.2
        simp only [fieldToks, List.length_cons] at h1
        omega
      · intro f _
        exact ⟨_, _, rfl, by simp⟩
    simp only [stmtToks, word, varTok, List.cons_append, List.append_assoc, List.nil_append, readStmt, if_true, readVar_itoa,
      Option.bind_some, h1, literal_fields h]
  | assign n field refs =>
    simp only [stmtToks, List.length_append, List.length_cons, List.length_nil] at hf
    have h1 : readList (readRef builder) fuel (listToks (refToks builder) refs ++ .sym 125 :: (.sym 59 :: ts)) =
        some (refs, .sym 59 :: ts) := by
      refine readList_toks _ _ _ ?_ (fun r _ => readRef_toks builder r) fun r _ => refToks_head builder r
      have := listToks_length (refToks builder) refs
      omega
    have h2 : runes "items" ≠ runes "options" := by decide
    cases field <;>
      simp only [stmtToks, word, varTok, List.cons_append, List.append_assoc, List.nil_append, readStmt, if_true, readVar_itoa,
        Option.bind_some, h1, if_neg h2]

def stmtsToks (ss : List (Bool × Stmt)) : List Tok := ss.flatMap fun st => stmtToks st.1 st.2

theorem readStmts_toks {fuel : Nat} {rest : List Tok} (hr : readStmt fuel rest = none) :
    ∀ (ss : List (Bool × Stmt)) (n : Nat), (∀ st ∈ ss, PrintedStmt st.1 st.2) → (stmtsToks ss).length ≤ fuel → ss.length ≤ n →
    readStmts fuel n (stmtsToks ss ++ rest) = (ss, rest)
  | [], 0, _, _, _ => rfl
  | [], n + 1, _, _, _ => by
    simp only [stmtsToks, List.flatMap_nil, List.nil_append, readStmts, hr]
  | st :: ss, 0, _, _, h => absurd h (by simp)
  | st :: ss, n + 1, h1, h2, h3 => by
    simp only [stmtsToks, List.flatMap_cons, List.length_append] at h2
    have ih := readStmts_toks hr ss n (fun s hs => h1 s (by simp [hs])) (by simp only [stmtsToks]; omega)
      (by simp only [List.length_cons] at h3; omega)
    have he : stmtsToks (st :: ss) ++ rest = stmtToks st.1 st.2 ++ (stmtsToks ss ++ rest) := by simp [stmtsToks]
    rw [he, readStmts, readStmt_toks (h1 st (by simp)) (by omega)]
    simp only [ih]

theorem stmtToks_length (builder : Bool) (st : Stmt) : 1 ≤ (stmtToks builder st).length := by
  cases st <;> simp [stmtToks] <;> omega

theorem stmtsToks_length (ss : List (Bool × Stmt)) : ss.length ≤ (stmtsToks ss).length := by
  induction ss with
  | nil => simp
  | cons st ss ih =>
    have := stmtToks_length st.1 st.2
    simp only [stmtsToks, List.flatMap_cons, List.length_append, List.length_cons] at *
    omega

/-! ### The function -/

def headToks (exported : Bool) : List Tok := word "func" :: word (if exported then "Parse" else "parse") :: signature

def keywordToks (ks : List Nat) : List Tok :=
  [word "var", word "keywords", .sym 61, .sym 91, .sym 93, word "parser", .sym 123] ++ listToks (refToks false) ks ++ [.sym 125, .sym 59]

def returnToks (p b : Nat) : List Tok :=
  [word "return", word "parseInput", .sym 40, word "r", .sym 44] ++ refToks false p ++ [.sym 44] ++ refToks true b ++
  [.sym 44, word "keywords", .sym 41, .sym 59, .sym 125, .sym 59]

def functionToks (exported : Bool) (ss : List (Bool × Stmt)) (ks : List Nat) (p b : Nat) : List Tok :=
  headToks exported ++ (stmtsToks ss ++ (keywordToks ks ++ returnToks p b))

theorem readHead_toks (exported : Bool) (ts : List Tok) : readHead (headToks exported ++ ts) = some (exported, ts) := by
  have h1 : runes "parse" ≠ runes "Parse" := by decide
  cases exported <;>
    simp only [headToks, word, List.cons_append, readHead, List.take_left, List.drop_left, and_self, if_true, Bool.false_eq_true,
      if_false, if_neg h1]

theorem readKeywords_toks {fuel : Nat} {ks : List Nat} (h : (keywordToks ks).length ≤ fuel) (ts : List Tok) :
    readKeywords fuel (keywordToks ks ++ ts) = some (ks, ts) := by
  have h1 : readList (readRef false) fuel (listToks (refToks false) ks ++ .sym 125 :: (.sym 59 :: ts)) = some (ks, .sym 59 :: ts) := by
    refine readList_toks _ _ _ ?_ (fun r _ => readRef_toks false r) fun r _ => refToks_head false r
    have := listToks_length (refToks false) ks
    simp only [keywordToks, List.length_append, List.length_cons, List.length_nil] at h
    omega
  simp only [keywordToks, word, List.cons_append, List.append_assoc, List.nil_append, readKeywords, and_self, if_true, h1, Option.bind_some]

theorem readReturn_toks (p b : Nat) : readReturn (returnToks p b) = some (p, b) := by
  simp only [returnToks, word, List.cons_append, List.append_assoc, List.nil_append, readReturn, and_self, if_true, readRef_toks,
    Option.bind_some]

theorem readStmt_keywords (fuel : Nat) (ks : List Nat) (ts : List Tok) : readStmt fuel (keywordToks ks ++ ts) = none := rfl

/-- The tokens of the function are read as its statements. -/
theorem readFunction_toks {text : List Rune} {exported : Bool} {ss : List (Bool × Stmt)} {ks : List Nat} {p b : Nat}
    (hs : ∀ st ∈ ss, PrintedStmt st.1 st.2) (h : lex (.between false) text = some (functionToks exported ss ks p b)) :
    readFunction text = some (exported, {
      parsers := (ss.filter fun st => !st.1).map Prod.snd
      builders := (ss.filter fun st => st.1).map Prod.snd
      keywords := ks
      rootParser := p
      rootBuilder := b }) := by
  have hl : (functionToks exported ss ks p b).length =
      (headToks exported).length + ((stmtsToks ss).length + ((keywordToks ks).length + (returnToks p b).length)) := by
    simp only [functionToks, List.length_append]
  have h1 := stmtsToks_length ss
  unfold readFunction
  rw [h, Option.bind_some]
  generalize (functionToks exported ss ks p b).length = fuel at hl
  simp only [functionToks, readHead_toks, Option.bind_some]
  rw [readStmts_toks (readStmt_keywords fuel ks _) ss fuel hs (by omega) (by omega)]
  simp only [readKeywords_toks (ks := ks) (fuel := fuel) (by omega), Option.bind_some, readReturn_toks, Option.map_some]

end Treerack
