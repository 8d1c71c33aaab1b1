import Verif.Proofs.GoRead

/-
The writes of the generated code have the tokens of the statements.
-/

namespace Treerack
open Spec

instance (b b' : Bool) (t : List Rune) (ts : List Tok) : Decidable (Lexes b t ts b') := by unfold Lexes; exact inferInstance

/-- Writes that end at a place where a new line has no meaning. -/
def LexesAll (ws : List (List Rune)) (ts : List Tok) : Prop := ∀ b, Lexes b ws.flatten ts (if ws = [] then b else false)

/-- The same for one write. -/
def Lexed (t : List Rune) (ts : List Tok) : Prop := ∀ b, Lexes b t ts false

instance (t : List Rune) (ts : List Tok) : Decidable (Lexed t ts) := by unfold Lexed; exact inferInstance

theorem LexesAll.nil : LexesAll [] [] := fun _ => Lexes.nil

theorem LexesAll.append {ws ws' : List (List Rune)} {ts ts' : List Tok} (h : LexesAll ws ts) (h' : LexesAll ws' ts') :
    LexesAll (ws ++ ws') (ts ++ ts') := by
  intro b
  rw [List.flatten_append]
  have h1 := (h b).append (h' (if ws = [] then b else false))
  cases ws with
  | nil => simpa using h1
  | cons w ws =>
    cases ws' with
    | nil => simpa using h1
    | cons w' ws' => simpa using h1

theorem LexesAll.one {t : List Rune} {ts : List Tok} (h : Lexed t ts) : LexesAll [t] ts := by
  intro b
  simpa using h b

theorem LexesAll.cons {t : List Rune} {ws : List (List Rune)} {ts ts' : List Tok} (h : Lexed t ts) (h' : LexesAll ws ts') :
    LexesAll (t :: ws) (ts ++ ts') := (LexesAll.one h).append h'

theorem LexesAll.lexed {t : List Rune} {ws : List (List Rune)} {ts : List Tok} (h : LexesAll (t :: ws) ts) :
    Lexed (t :: ws).flatten ts := by
  intro b
  have := h b
  rwa [if_neg (by simp)] at this

theorem Lexed.append {t t' : List Rune} {ts ts' : List Tok} (h : Lexed t ts) (h' : Lexed t' ts') : Lexed (t ++ t') (ts ++ ts') :=
  fun b => (h b).append (h' false)

/-! ### Parts -/

theorem Lexed.number {n : Nat} {c : Rune} {cs : List Rune} {ts : List Tok} (hc : Ender c) (h : Lexed (c :: cs) ts) :
    Lexed (itoa n ++ c :: cs) (.int n :: ts) := fun _ => .number hc (h true)

theorem Lexed.printInt {z : Int} {c : Rune} {cs : List Rune} {ts : List Tok} (hc : Ender c) (h : Lexed (c :: cs) ts) :
    Lexed (printInt z ++ c :: cs) (intToks z ++ ts) := by
  cases z with
  | ofNat n => exact .number hc h
  | negSucc n =>
    have h1 : Lexed [45] [.sym 45] := by decide
    exact h1.append (.number hc h)

theorem Lexed.variable {builder : Bool} {n : Nat} {c : Rune} {cs : List Rune} {ts : List Tok}
    (hc : isLetter c = false ∧ isDigit c = false) (h : Lexed (c :: cs) ts) :
    Lexed (runes (if builder then "b" else "p") ++ itoa n ++ c :: cs) (varTok builder n :: ts) := by
  intro b
  cases builder with
  | true => exact Lexes.variable (v := 98) (by decide) hc h
  | false => exact Lexes.variable (v := 112) (by decide) hc h

theorem lexed_int (z : Int) : Lexed (intWrite z) (intToks z ++ [.sym 44]) :=
  .printInt (c := 44) (cs := []) (by decide) (by decide)

theorem lexed_pair (x : Int × Int) : Lexed (pairWrite x) (pairToks x ++ [.sym 44]) := by
  have h0 : Lexed (runes "{") [.sym 123] := by decide
  have h1 : Lexed (44 :: [32]) [.sym 44] := by decide
  have h2 : Lexed (125 :: [44]) [.sym 125, .sym 44] := by decide
  have h3 := h0.append ((Lexed.printInt (z := x.1) (by decide) h1).append (Lexed.printInt (z := x.2) (by decide) h2))
  have e1 : pairWrite x = runes "{" ++ ((printInt x.1 ++ 44 :: [32]) ++ (printInt x.2 ++ 125 :: [44])) := by
    have a : runes ", " = 44 :: [32] := by decide
    have b : runes "}," = 125 :: [44] := by decide
    simp only [pairWrite, a, b, List.append_assoc]
  have e2 : pairToks x ++ [.sym 44] = [.sym 123] ++ ((intToks x.1 ++ [.sym 44]) ++ (intToks x.2 ++ [.sym 125, .sym 44])) := by
    simp [pairToks]
  rw [e1, e2]
  exact h3

theorem lexesAll_items {α : Type} {write : α → List Rune} {toks : α → List Tok} (h : ∀ x, Lexed (write x) (toks x ++ [.sym 44])) :
    ∀ l : List α, LexesAll (l.map write) (listToks toks l)
  | [] => .nil
  | x :: l => .cons (h x) (lexesAll_items h l)

/-- A list in a field. -/
theorem lexesAll_list {α β : Type} {opening f : String} {write : α → List Rune} {toks : β → List Tok} {conv : α → β}
    {v : List β → Value} {front : List Tok}
    (ho : Lexed (runes opening) (.word (runes f) :: .sym 58 :: front)) (h : ∀ x, Lexed (write x) (toks (conv x) ++ [.sym 44]))
    (hv : ∀ l, valueToks (v l) = front ++ listToks toks l ++ [.sym 125]) (l : List α) :
    LexesAll (listWrites opening write l) (listToks fieldToks (optField f v (l.map conv))) := by
  cases l with
  | nil => exact .nil
  | cons x l =>
    have hc : Lexed (runes "},") [.sym 125, .sym 44] := by decide
    have h1 := (LexesAll.one ho).append ((lexesAll_items (write := write) (toks := fun x => toks (conv x)) h (x :: l)).append (.one hc))
    have e1 : listWrites opening write (x :: l) = [runes opening] ++ ((x :: l).map write ++ [runes "},"]) := by
      simp [listWrites]
    have e2 : listToks fieldToks (optField f v ((x :: l).map conv)) =
        .word (runes f) :: .sym 58 :: front ++ (listToks (fun x => toks (conv x)) (x :: l) ++ [.sym 125, .sym 44]) := by
      simp only [List.map_cons, optField, listToks, List.flatMap_cons, List.flatMap_nil, fieldToks, hv, List.flatMap_map,
        List.append_nil, List.cons_append, List.append_assoc, List.nil_append]
    rw [e1, e2]
    exact h1

theorem lexesAll_ints {f : String} {ty : String} (opening : String)
    (ho : Lexed (runes opening) [.word (runes f), .sym 58, .sym 91, .sym 93, .word (runes ty), .sym 123]) (l : List Nat) :
    LexesAll (listWrites opening (fun c => intWrite (c : Nat)) l) (listToks fieldToks (optField f (.ints (runes ty)) (asInts l))) :=
  lexesAll_list (conv := Int.ofNat) ho (fun x => lexed_int (Int.ofNat x)) (fun _ => rfl) l

theorem lexesAll_flag {f : String} {w : List Rune} (h : Lexed w [.word (runes f), .sym 58, word "true", .sym 44]) (b : Bool) :
    LexesAll (if b then [w] else []) (listToks fieldToks (flagField f b)) := by
  cases b with
  | false => exact .nil
  | true => exact .one h

theorem listToks_append {α : Type} (toks : α → List Tok) (l l' : List α) : listToks toks (l ++ l') = listToks toks l ++ listToks toks l' := by
  simp [listToks]

theorem lexesAll_id (l : Lit) : LexesAll [runes "id: " ++ itoa l.id ++ runes ", commit: " ++ itoa l.commit.value ++ runes ","]
    (listToks fieldToks (idFields l)) := by
  apply LexesAll.one
  have h1 : Lexed (runes "id: ") [word "id", .sym 58] := by decide
  have h2 : Lexed (44 :: runes " commit: ") [.sym 44, word "commit", .sym 58] := by decide
  have h3 : Lexed (44 :: []) [.sym 44] := by decide
  have h := h1.append ((Lexed.number (n := l.id) (by decide) h2).append (Lexed.number (n := l.commit.value) (by decide) h3))
  have e1 : runes ", commit: " = 44 :: runes " commit: " := by decide
  have e2 : runes "," = 44 :: [] := by decide
  have e3 : listToks fieldToks (idFields l) = [word "id", .sym 58] ++ ((.int l.id :: [.sym 44, word "commit", .sym 58]) ++
      (.int l.commit.value :: [.sym 44])) := rfl
  rw [e3, e2, e1]
  simpa only [List.append_assoc] using h

theorem lexesAll_onlyId (l : Lit) : LexesAll [runes "id: " ++ itoa l.id ++ runes ","]
    (listToks fieldToks [(runes "id", .int (Int.ofNat l.id))]) := by
  apply LexesAll.one
  have h1 : Lexed (runes "id: ") [word "id", .sym 58] := by decide
  have h3 : Lexed (44 :: []) [.sym 44] := by decide
  have h := h1.append (Lexed.number (n := l.id) (by decide) h3)
  have e2 : runes "," = 44 :: [] := by decide
  have e3 : listToks fieldToks [(runes "id", .int (Int.ofNat l.id))] = [word "id", .sym 58] ++ (.int l.id :: [.sym 44]) := rfl
  rw [e3, e2]
  simpa only [List.append_assoc] using h

theorem lexed_name {name : List Rune} (h : Quotable name) :
    Lexed (runes "name: \"" ++ name ++ runes "\",") [word "name", .sym 58, .str name, .sym 44] := by
  have h1 : Lexed (runes "name: ") [word "name", .sym 58] := by decide
  have h2 : Lexes true [44] [.sym 44] false := by decide
  have e1 : runes "name: \"" = runes "name: " ++ [34] := by decide
  have e2 : runes "\"," = 34 :: [44] := by decide
  intro b
  have h3 := (h1 b).append (Lexes.quoted (b := false) h h2)
  rw [e1, e2]
  simpa only [List.append_assoc, List.cons_append, List.nil_append] using h3

theorem lexesAll_parserName {l : Lit} (h : Quotable l.name) :
    LexesAll (if l.commit.userDefined then [runes "name: \"" ++ l.name ++ runes "\","] else [])
      (listToks fieldToks (nameField false l)) := by
  have : nameField false l = if l.commit.userDefined then [(runes "name", .str l.name)] else [] := rfl
  rw [this]
  split
  · exact .one (lexed_name h)
  · exact .nil

theorem lexesAll_builderName {l : Lit} (h : Quotable l.name) :
    LexesAll (if l.commit.alias then [] else [runes "name: \"" ++ l.name ++ runes "\","])
      (listToks fieldToks (nameField true l)) := by
  have : nameField true l = if !l.commit.alias then [(runes "name", .str l.name)] else [] := rfl
  rw [this]
  cases l.commit.alias with
  | true => exact .nil
  | false => exact .one (lexed_name h)

/-- The beginning of a declaration. -/
theorem lexed_var (builder : Bool) (n : Nat) {ty : String} {rest : List Rune} {ts : List Tok}
    (h : Lexed (32 :: rest) (.sym 61 :: word ty :: .sym 123 :: ts)) :
    Lexed (runes "var " ++ runes (if builder then "b" else "p") ++ itoa n ++ 32 :: rest)
      (word "var" :: varTok builder n :: .sym 61 :: word ty :: .sym 123 :: ts) := by
  have h1 : Lexed (runes "var ") [word "var"] := by decide
  have := h1.append (Lexed.variable (builder := builder) (n := n) (by decide) h)
  simpa only [List.append_assoc, List.cons_append, List.nil_append] using this

theorem lexed_close : Lexed (runes "};") [.sym 125, .sym 59] := by decide

theorem stmtToks_declare (builder : Bool) (n : Nat) (l : Lit) : stmtToks builder (.declare n l) =
    [word "var", varTok builder n, .sym 61, word (litType builder l.kind), .sym 123] ++
      (listToks fieldToks (litFields builder l) ++ [.sym 125, .sym 59]) := by
  simp [stmtToks]

theorem lexesAll_parser {n : Nat} {l : Lit} (h : Quotable l.name) : LexesAll (parserWrites n l) (stmtToks false (.declare n l)) := by
  have hp : runes "var p" = runes "var " ++ runes "p" := by decide
  rw [stmtToks_declare]
  unfold parserWrites litFields
  cases l.kind with
  | char neg cs rs =>
    have h1 := lexed_var false n (ty := "charParser") (rest := runes "= charParser{") (ts := []) (by decide)
    have h2 := lexesAll_onlyId l
    have h3 := lexesAll_flag (f := "not") (w := runes "not: true,") (by decide) neg
    have h4 := lexesAll_ints (f := "chars") (ty := "rune") "chars: []rune{" (by decide) cs
    have h5 := lexesAll_list (opening := "ranges: [][]rune{") (f := "ranges") (conv := fun x : Nat × Nat => (Int.ofNat x.1, Int.ofNat x.2))
      (v := .pairs (runes "rune")) (by decide) (fun x => lexed_pair (Int.ofNat x.1, Int.ofNat x.2)) (fun _ => rfl) rs
    have := (LexesAll.one h1).append (h2.append (h3.append (h4.append (h5.append (.one lexed_close)))))
    have e : runes " = charParser{" = 32 :: runes "= charParser{" := by decide
    simp only [listToks_append, Bool.false_eq_true, if_false, e, hp]
    simp only [List.append_assoc, List.cons_append, List.nil_append] at this ⊢
    exact this
  | choice =>
    have h1 := lexed_var false n (ty := "choiceParser") (rest := runes "= choiceParser{") (ts := []) (by decide)
    have h2 := lexesAll_id l
    have h3 := lexesAll_parserName h
    have h4 := lexesAll_ints (f := "generalizations") (ty := "int") "generalizations: []int{" (by decide) l.gens
    have := (LexesAll.one h1).append (h2.append (h3.append (h4.append (.one lexed_close))))
    have e : runes " = choiceParser{" = 32 :: runes "= choiceParser{" := by decide
    simp only [listToks_append, e, hp]
    simp only [List.append_assoc, List.cons_append, List.nil_append] at this ⊢
    exact this
  | seq rs ac =>
    have h1 := lexed_var false n (ty := "sequenceParser") (rest := runes "= sequenceParser{") (ts := []) (by decide)
    have h2 := lexesAll_id l
    have h3 := lexesAll_parserName h
    have h4 := lexesAll_flag (f := "allChars") (w := runes "allChars: true,") (by decide) ac
    have h5 := lexesAll_list (opening := "ranges: [][]int{") (f := "ranges") (conv := id)
      (v := .pairs (runes "int")) (by decide) lexed_pair (fun _ => rfl) rs
    have h6 := lexesAll_ints (f := "generalizations") (ty := "int") "generalizations: []int{" (by decide) l.gens
    have := (LexesAll.one h1).append (h2.append (h3.append (h4.append (h5.append (h6.append (.one lexed_close))))))
    have e : runes " = sequenceParser{" = 32 :: runes "= sequenceParser{" := by decide
    simp only [listToks_append, e, hp]
    simp only [List.append_assoc, List.cons_append, List.nil_append, List.map_id] at this ⊢
    exact this

theorem lexesAll_builder {n : Nat} {l : Lit} (h : Quotable l.name) : LexesAll (builderWrites n l) (stmtToks true (.declare n l)) := by
  have hp : runes "var b" = runes "var " ++ runes "b" := by decide
  rw [stmtToks_declare]
  unfold builderWrites litFields
  cases l.kind with
  | char neg cs rs =>
    have h1 := lexed_var true n (ty := "charBuilder") (rest := runes "= charBuilder{};") (ts := [.sym 125, .sym 59]) (by decide)
    have e : runes " = charBuilder{};" = 32 :: runes "= charBuilder{};" := by decide
    simp only [e, hp]
    exact .one h1
  | choice =>
    have h1 := lexed_var true n (ty := "choiceBuilder") (rest := runes "= choiceBuilder{") (ts := []) (by decide)
    have h2 := lexesAll_id l
    have h3 := lexesAll_builderName h
    have h4 := lexesAll_ints (f := "generalizations") (ty := "int") "generalizations: []int{" (by decide) l.gens
    have := (LexesAll.one h1).append (h2.append (h3.append (h4.append (.one lexed_close))))
    have e : runes " = choiceBuilder{" = 32 :: runes "= choiceBuilder{" := by decide
    simp only [listToks_append, e, hp]
    simp only [List.append_assoc, List.cons_append, List.nil_append] at this ⊢
    exact this
  | seq rs ac =>
    have h1 := lexed_var true n (ty := "sequenceBuilder") (rest := runes "= sequenceBuilder{") (ts := []) (by decide)
    have h2 := lexesAll_id l
    have h3 := lexesAll_builderName h
    have h4 := lexesAll_flag (f := "allChars") (w := runes "allChars: true,") (by decide) ac
    have h5 := lexesAll_list (opening := "ranges: [][]int{") (f := "ranges") (conv := id)
      (v := .pairs (runes "int")) (by decide) lexed_pair (fun _ => rfl) rs
    have h6 := lexesAll_ints (f := "generalizations") (ty := "int") "generalizations: []int{" (by decide) l.gens
    have := (LexesAll.one h1).append (h2.append (h3.append (h4.append (h5.append (h6.append (.one lexed_close))))))
    have e : runes " = sequenceBuilder{" = 32 :: runes "= sequenceBuilder{" := by decide
    simp only [listToks_append, e, hp]
    simp only [List.append_assoc, List.cons_append, List.nil_append, List.map_id] at this ⊢
    exact this

theorem lexed_ref (builder : Bool) (n : Nat) : Lexed (runes "&" ++ runes (if builder then "b" else "p") ++ itoa n ++ runes ",")
    (refToks builder n ++ [.sym 44]) := by
  have h1 : Lexed (runes "&") [.sym 38] := by decide
  have h2 : Lexed (44 :: []) [.sym 44] := by decide
  have e : runes "," = 44 :: [] := by decide
  have := h1.append (Lexed.variable (builder := builder) (n := n) (by decide) h2)
  rw [e]
  simpa only [List.append_assoc, List.cons_append, List.nil_append, refToks] using this

/-- The text behind the variable in an assignment. -/
def assignRest (builder : Bool) : Field → List Rune
  | .options => runes "options = []" ++ runes (if builder then "builder" else "parser") ++ runes "{"
  | .items => runes "items = []" ++ runes (if builder then "builder" else "parser") ++ runes "{"

theorem lexed_assignRest (builder : Bool) (field : Field) : Lexed (46 :: assignRest builder field)
    [.sym 46, word (match field with | .options => "options" | .items => "items"),
      .sym 61, .sym 91, .sym 93, word (if builder then "builder" else "parser"), .sym 123] := by
  cases field <;> cases builder <;> decide +kernel

theorem lexesAll_assign (builder : Bool) (n : Nat) (field : Field) (refs : List Nat) :
    LexesAll (assignWrites builder n field refs) (stmtToks builder (.assign n field refs)) := by
  have e : assignWrites builder n field refs = [runes (if builder then "b" else "p") ++ itoa n ++ 46 :: assignRest builder field] ++
      (refs.map (fun r => runes "&" ++ runes (if builder then "b" else "p") ++ itoa r ++ runes ",") ++ [runes "};"]) := by
    unfold assignWrites
    cases field <;> cases builder <;> simp [assignRest, runes]
  have h1 := lexed_assignRest builder field
  have h2 := (LexesAll.one (Lexed.variable (builder := builder) (n := n) (by decide) h1)).append
    ((lexesAll_items (lexed_ref builder) refs).append (.one lexed_close))
  rw [e]
  unfold stmtToks
  simp only [List.append_assoc, List.cons_append, List.nil_append] at h2 ⊢
  exact h2

/-- The writes of a statement. -/
def stmtWrites (builder : Bool) : Stmt → List (List Rune)
  | .declare n l => if builder then builderWrites n l else parserWrites n l
  | .assign n field refs => assignWrites builder n field refs

/-- The names of the literals can be printed between quotes. -/
def QuotableStmt : Stmt → Prop
  | .declare _ l => Quotable l.name
  | .assign _ _ _ => True

theorem lexesAll_stmt {builder : Bool} {st : Stmt} (h : QuotableStmt st) : LexesAll (stmtWrites builder st) (stmtToks builder st) := by
  cases st with
  | declare n l =>
    cases builder with
    | false => exact lexesAll_parser h
    | true => exact lexesAll_builder h
  | assign n field refs => exact lexesAll_assign builder n field refs

theorem lexesAll_stmts {builder : Bool} : ∀ {ss : List Stmt}, (∀ st ∈ ss, QuotableStmt st) →
    LexesAll (ss.flatMap (stmtWrites builder)) (stmtsToks (ss.map fun st => (builder, st)))
  | [], _ => .nil
  | st :: ss, h => by
    have := (lexesAll_stmt (builder := builder) (h st (by simp))).append (lexesAll_stmts (builder := builder) (ss := ss) fun st hst => h st (by simp [hst]))
    simpa only [List.flatMap_cons, List.map_cons, stmtsToks] using this

/-! ### The head and the end -/

/-- The text of the function in front of the statements. -/
def functionHead (exported : Bool) : List Rune :=
  (if exported then runes "func Parse(r io.Reader) (*Node, error) {" else runes "func parse(r io.Reader) (*Node, error) {") ++ runes "\n"

theorem lexed_head (exported : Bool) : Lexed (functionHead exported) (headToks exported) := by
  cases exported <;> decide +kernel

theorem lexed_newline : Lexes false (runes "\n") [] false := by decide

theorem lexed_keyword (n : Nat) : Lexed (runes "&p" ++ itoa n ++ runes ", ") (refToks false n ++ [.sym 44]) := by
  have h1 : Lexed (runes "&") [.sym 38] := by decide
  have h2 : Lexed (44 :: [32]) [.sym 44] := by decide
  have e : runes ", " = 44 :: [32] := by decide
  have e' : runes "&p" = runes "&" ++ runes "p" := by decide
  have := h1.append (Lexed.variable (builder := false) (n := n) (by decide) h2)
  rw [e, e']
  simpa only [List.append_assoc, List.cons_append, List.nil_append, refToks, Bool.false_eq_true, if_false] using this

theorem lexes_closing (ks : List Nat) (p b : Nat) :
    Lexes false (closingWrites ks p b).flatten (keywordToks ks ++ returnToks p b) false := by
  have h1 : Lexes false (runes "\n" ++ runes "\n" ++ runes "var keywords = []parser{")
      [word "var", word "keywords", .sym 61, .sym 91, .sym 93, word "parser", .sym 123] false := by decide +kernel
  have h2 := lexesAll_items lexed_keyword ks false
  have h3 : Lexed (runes "}" ++ runes "\n" ++ runes "\n" ++ runes "return parseInput(r, &")
      [.sym 125, .sym 59, word "return", word "parseInput", .sym 40, word "r", .sym 44, .sym 38] := by decide +kernel
  have h4 : Lexed (44 :: runes " &") [.sym 44, .sym 38] := by decide
  have h5 : Lexed (44 :: (runes " keywords)" ++ runes "\n" ++ runes "}" ++ runes "\n"))
      [.sym 44, word "keywords", .sym 41, .sym 59, .sym 125, .sym 59] := by decide +kernel
  have h6 := h3.append ((Lexed.variable (builder := false) (n := p) (by decide) h4).append
    (Lexed.variable (builder := true) (n := b) (by decide) h5))
  rw [show (if ks.map (fun n => runes "&p" ++ itoa n ++ runes ", ") = [] then false else false) = false by split <;> rfl] at h2
  have h := h1.append (h2.append (h6 false))
  have e1 : (closingWrites ks p b).flatten = (runes "\n" ++ runes "\n" ++ runes "var keywords = []parser{") ++
      ((ks.map (fun n => runes "&p" ++ itoa n ++ runes ", ")).flatten ++
      ((runes "}" ++ runes "\n" ++ runes "\n" ++ runes "return parseInput(r, &") ++
      ((runes (if false then "b" else "p") ++ itoa p ++ 44 :: runes " &") ++ (runes (if true then "b" else "p") ++ itoa b ++
      44 :: (runes " keywords)" ++ runes "\n" ++ runes "}" ++ runes "\n"))))) := by
    have a1 : runes "return parseInput(r, &p" = runes "return parseInput(r, &" ++ runes "p" := by decide
    have a2 : runes ", &b" = 44 :: (runes " &" ++ runes "b") := by decide
    have a3 : runes ", keywords)" = 44 :: runes " keywords)" := by decide
    simp only [closingWrites, a1, a2, a3, List.flatten_append, List.flatten_cons, List.flatten_nil, List.append_assoc, List.cons_append,
      List.nil_append, List.append_nil, if_true, Bool.false_eq_true, if_false]
  have e2 : keywordToks ks ++ returnToks p b = [word "var", word "keywords", .sym 61, .sym 91, .sym 93, word "parser", .sym 123] ++
      (listToks (refToks false) ks ++ ([.sym 125, .sym 59, word "return", word "parseInput", .sym 40, word "r", .sym 44, .sym 38] ++
      ((varTok false p :: [.sym 44, .sym 38]) ++ (varTok true b :: [.sym 44, word "keywords", .sym 41, .sym 59, .sym 125, .sym 59])))) := by
    simp only [keywordToks, returnToks, refToks, List.append_assoc, List.cons_append, List.nil_append]
  rw [e1, e2]
  exact h

/-- The text of the function. -/
def functionText (exported : Bool) (ks : List Stmt) (ps bs : List Stmt) (keywords : List Nat) (p b : Nat) : List Rune :=
  functionHead exported ++ ((ks.flatMap (stmtWrites false)).flatten ++ (runes "\n" ++ ((ps.flatMap (stmtWrites false)).flatten ++
    ((bs.flatMap (stmtWrites true)).flatten ++ (closingWrites keywords p b).flatten))))

theorem lexesAll_stmts_between {builder : Bool} {ss : List Stmt} (h : ∀ st ∈ ss, QuotableStmt st) :
    Lexes false (ss.flatMap (stmtWrites builder)).flatten (stmtsToks (ss.map fun st => (builder, st))) false := by
  have := lexesAll_stmts (builder := builder) h false
  rwa [show (if ss.flatMap (stmtWrites builder) = [] then false else false) = false by split <;> rfl] at this

theorem lex_functionText {exported : Bool} {ks ps bs : List Stmt} {keywords : List Nat} {p b : Nat}
    (hk : ∀ st ∈ ks, QuotableStmt st) (hp : ∀ st ∈ ps, QuotableStmt st) (hb : ∀ st ∈ bs, QuotableStmt st) :
    lex (.between false) (functionText exported ks ps bs keywords p b) =
      some (functionToks exported ((ks ++ ps).map (fun st => (false, st)) ++ bs.map fun st => (true, st)) keywords p b) := by
  have h := ((lexed_head exported) false).append ((lexesAll_stmts_between (builder := false) hk).append
    (lexed_newline.append ((lexesAll_stmts_between (builder := false) hp).append
      ((lexesAll_stmts_between (builder := true) hb).append (lexes_closing keywords p b)))))
  have := lex_of_run _ _ _ _ h
  unfold functionText
  rw [this]
  simp only [functionToks, stmtsToks, List.map_append, List.flatMap_append, List.append_assoc, List.nil_append]

theorem filter_stmts (ss bs : List Stmt) :
    ((ss.map (fun st => (false, st)) ++ bs.map fun st => (true, st)).filter (fun st => !st.1)).map Prod.snd = ss ∧
    ((ss.map (fun st => (false, st)) ++ bs.map fun st => (true, st)).filter (fun st => st.1)).map Prod.snd = bs := by
  have h1 : ∀ (b : Bool) (l : List Stmt), l.filter (fun _ => b) = if b then l else [] := by
    intro b l
    cases b <;> simp
  simp [List.filter_map, Function.comp_def, h1]

theorem readFunction_functionText {exported : Bool} {ks ps bs : List Stmt} {keywords : List Nat} {p b : Nat}
    (hk : ∀ st ∈ ks, QuotableStmt st ∧ PrintedStmt false st) (hp : ∀ st ∈ ps, QuotableStmt st ∧ PrintedStmt false st)
    (hb : ∀ st ∈ bs, QuotableStmt st ∧ PrintedStmt true st) :
    readFunction (functionText exported ks ps bs keywords p b) = some (exported,
      { parsers := ks ++ ps, builders := bs, keywords := keywords, rootParser := p, rootBuilder := b }) := by
  have h := lex_functionText (exported := exported) (keywords := keywords) (p := p) (b := b)
    (fun st hst => (hk st hst).1) (fun st hst => (hp st hst).1) (fun st hst => (hb st hst).1)
  rw [readFunction_toks ?_ h, (filter_stmts (ks ++ ps) bs).1, (filter_stmts (ks ++ ps) bs).2]
  intro st hst
  rcases List.mem_append.1 hst with hst | hst
  · obtain ⟨x, hx, rfl⟩ := List.mem_map.1 hst
    rcases List.mem_append.1 hx with hx | hx
    · exact (hk x hx).2
    · exact (hp x hx).2
  · obtain ⟨x, hx, rfl⟩ := List.mem_map.1 hst
    exact (hb x hx).2

end Treerack
