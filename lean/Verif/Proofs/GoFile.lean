import Verif.Proofs.GoNames

/-
The parts of the generated file.
-/

namespace Treerack
open Spec

section

variable {s s' : Syntax} {prog : Program} {k : GenConstants} {opts : GeneratorOptions} {w : Writer} {o : Out}

theorem GenerateTo_cases {e : Option GenErr} (h : s.GenerateTo k opts w = .ok (s', o, e)) :
    (∃ e1, s.Init = .ok (s', some e1) ∧ e = some (.syntax e1) ∧ o = {}) ∨
    ∃ root b, s.Init = .ok (s', none) ∧ s'.root = some root ∧ generateCode s'.env root k opts w = .ok (o, b) ∧
      e = if b then some .write else none := by
  unfold Syntax.GenerateTo at h
  obtain ⟨⟨s1, e1⟩, h1, h⟩ := Res.bind_eq_ok h
  cases e1 with
  | some e1 =>
    cases h
    exact .inl ⟨e1, h1, rfl, rfl⟩
  | none =>
    simp only at h
    cases hr : s1.root with
    | none => rw [hr] at h; cases h
    | some root =>
      rw [hr] at h
      simp only at h
      obtain ⟨⟨o1, b⟩, h2, h⟩ := Res.bind_eq_ok h
      cases h
      exact .inr ⟨root, b, h1, hr, h2, rfl⟩

theorem GenerateTo_none (h : s.GenerateTo k opts w = .ok (s', o, none)) :
    ∃ root, s.Init = .ok (s', none) ∧ s'.root = some root ∧ generateCode s'.env root k opts w = .ok (o, false) := by
  rcases GenerateTo_cases h with ⟨e1, _, h2, _⟩ | ⟨root, b, h1, h2, h3, h4⟩
  · cases h2
  · cases b with
    | true => cases h4
    | false => exact ⟨root, h1, h2, h3⟩

theorem Generate_of {root : Ptr} (hi : s.Init = .ok (s', none)) (hr : s'.root = some root) (hp : generateProgram s'.env root = .ok prog) :
    s.Generate = .ok (s', .ok prog) := by
  unfold Syntax.Generate
  rw [hi]
  simp only [Res.bind, hr]
  rw [hp]

theorem flatten_headWrites : (headWrites k opts).flatten =
    fileFront k.gendoc k.headCode (if opts.packageName = [] then runes "main" else opts.packageName) ++ functionLine opts.exported := by
  have h1 : runes "\n\npackage " = runes "\n" ++ (runes "\n" ++ runes "package ") := by decide
  have h2 : runes "\n\n" = runes "\n" ++ runes "\n" := by decide
  unfold headWrites fileFront
  rw [h1, h2]
  cases opts.exported
  · have h3 : functionLine false = runes "func parse(r io.Reader) (*Node, error) {" ++ runes "\n" := by decide
    simp [h3]
  · have h3 : functionLine true = runes "func Parse(r io.Reader) (*Node, error) {" ++ runes "\n" := by decide
    simp [h3]

theorem functionHead_line (b : Bool) : functionHead b = functionLine b := by cases b <;> decide

theorem runes_toString (n : Nat) : runes (toString n) = itoa n := by
  unfold runes itoa
  rw [show toString n = String.ofList (Nat.toDigits 10 n) from rfl]
  simp

theorem flatten_closingWrites (ks : List Nat) (p b : Nat) : (closingWrites ks p b).flatten = functionEnd ks p b := by
  have h1 : runes "\n\nvar keywords = []parser{" = runes "\n" ++ (runes "\n" ++ runes "var keywords = []parser{") := by decide
  have h2 : runes "}\n\nreturn parseInput(r, &p" = runes "}" ++ (runes "\n" ++ (runes "\n" ++ runes "return parseInput(r, &p")) := by decide
  have h3 : runes ", keywords)\n}\n" = runes ", keywords)" ++ (runes "\n" ++ (runes "}" ++ runes "\n")) := by decide
  unfold closingWrites functionEnd
  rw [h1, h2, h3]
  simp only [runes_toString, List.flatMap_def, List.flatten_append, List.flatten_cons, List.flatten_nil, List.append_assoc, List.cons_append,
    List.nil_append, List.append_nil]

/-- The syntax can be printed with every writer. -/
theorem GenerateTo_ok (hg : s.Generate = .ok (s', .ok prog)) : ∃ (o : Out) (e : Bool), s.GenerateTo k opts w = .ok (s', o, if e then some .write else none) := by
  unfold Syntax.Generate at hg
  obtain ⟨⟨s1, e1⟩, h1, h⟩ := Res.bind_eq_ok hg
  cases e1 with
  | some e1 => cases h
  | none =>
    simp only at h
    cases hr : s1.root with
    | none => rw [hr] at h; cases h
    | some root =>
      rw [hr] at h
      simp only at h
      obtain ⟨p, hp, h⟩ := Res.bind_eq_ok h
      cases h
      obtain ⟨⟨o, e⟩, hx⟩ := generateCode_ok k opts w hp
      refine ⟨o, e, ?_⟩
      unfold Syntax.GenerateTo
      rw [h1]
      simp only [Res.bind, hr]
      rw [hx]

theorem Generate_error {e : SynErr} : s.Generate = .ok (s', .error e) ↔ s.Init = .ok (s', some e) := by
  constructor
  · intro h
    unfold Syntax.Generate at h
    obtain ⟨⟨s1, e1⟩, h1, h⟩ := Res.bind_eq_ok h
    cases e1 with
    | some e1 =>
      cases h
      exact h1
    | none =>
      simp only at h
      cases hr : s1.root with
      | none => rw [hr] at h; cases h
      | some root =>
        rw [hr] at h
        simp only at h
        obtain ⟨p, hp, h⟩ := Res.bind_eq_ok h
        cases h
  · intro h
    unfold Syntax.Generate
    rw [h]
    rfl

theorem GenerateTo_error {e : SynErr} (h : s.Init = .ok (s', some e)) : s.GenerateTo k opts w = .ok (s', {}, some (.syntax e)) := by
  unfold Syntax.GenerateTo
  rw [h]
  rfl

theorem validSymbol_quotable {n : Name} (h : isValidSymbol n = true) (h' : ∀ c ∈ n, c ≠ 0 ∧ c ≠ 0xFEFF) : Quotable n := by
  intro c hc
  have h1 := List.all_eq_true.1 h c hc
  have hne : ∀ x : Rune, x ∈ symbolChars → c ≠ x := by
    rintro x hx rfl
    have : matchChar symbolChars [] true c = false := by
      unfold matchChar
      rw [show (symbolChars.any fun ci => ci == c) = true from List.any_eq_true.2 ⟨c, hx, by simp⟩]
      rfl
    rw [this] at h1
    cases h1
  exact ⟨hne 34 (by decide), hne 10 (by decide), hne 92 (by decide), h' c hc⟩

theorem call_valid {c : Call} (h : s.call c = (s', none)) : isValidSymbol c.name = true := by
  rw [call_marked] at h
  split at h
  · cases h
  · rename_i hv
    simpa using hv

theorem calls_symbols : ∀ {cs : List Call} {s s' : Syntax}, s.calls cs = some s' → ∀ c ∈ cs, isValidSymbol c.name = true
  | [], _, _, _ => by simp
  | c :: cs, s, s', h => by
    unfold Syntax.calls at h
    split at h
    · rename_i s1 h1
      intro c' hc'
      rcases List.mem_cons.1 hc' with rfl | hc'
      · exact call_valid h1
      · exact calls_symbols h c' hc'
    · cases h

end

end Treerack
