import Verif.Proofs.DocLangWs
import Verif.Proofs.WrittenSymbols
import Verif.Props.Written
import Verif.Props.Text

/-
The definition calls of documents satisfy the conditions for generating code.
-/

namespace Treerack
open Spec

/-! ### References -/

mutual

/-- The references of the calls are symbols, or names of other calls. -/
theorem calls_refs : ∀ (e : DExpr) {n : Name} {ct : Commit}, ∀ c ∈ e.calls n ct, ∀ r ∈ c.refs,
    r ∈ e.symbols ∨ ∃ c' ∈ e.calls n ct, c'.name = r
  | .any, n, ct, c, h, r, hr => by simp only [DExpr.calls, List.mem_singleton] at h; subst h; simp [Call.refs] at hr
  | .class_ .., n, ct, c, h, r, hr => by simp only [DExpr.calls, List.mem_singleton] at h; subst h; simp [Call.refs] at hr
  | .chars .., n, ct, c, h, r, hr => by simp only [DExpr.calls, List.mem_singleton] at h; subst h; simp [Call.refs] at hr
  | .symbol m, n, ct, c, h, r, hr => by
    simp only [DExpr.calls, List.mem_singleton] at h; subst h
    simp only [Call.refs, List.map_cons, List.map_nil, List.mem_singleton] at hr
    subst hr
    exact .inl (by simp [DExpr.symbols])
  | .seq items, n, ct, c, h, r, hr => by
    obtain ⟨k1, k2⟩ := itemsCalls_refs items (n := n) (ct := ct) (i := 0)
    have key : r ∈ items.symbols ∨ ∃ c' ∈ items.calls n ct 0, c'.name = r := by
      simp only [DExpr.calls, List.mem_append, List.mem_singleton] at h
      rcases h with h | rfl
      · exact k1 c h r hr
      · obtain ⟨it, h1, rfl⟩ := List.mem_map.1 hr
        exact k2 it h1
    rcases key with h | ⟨c', h, e⟩
    · exact .inl h
    · exact .inr ⟨c', by simp only [DExpr.calls, List.mem_append]; exact .inl h, e⟩
  | .choice os, n, ct, c, h, r, hr => by
    obtain ⟨k1, k2⟩ := optionsCalls_refs os (n := n) (ct := ct) (i := 0)
    have key : r ∈ os.symbols ∨ ∃ c' ∈ os.calls n ct 0, c'.name = r := by
      simp only [DExpr.calls, List.mem_append, List.mem_singleton] at h
      rcases h with h | rfl
      · exact k1 c h r hr
      · exact k2 r hr
    rcases key with h | ⟨c', h, e⟩
    · exact .inl h
    · exact .inr ⟨c', by simp only [DExpr.calls, List.mem_append]; exact .inl h, e⟩

theorem itemsCalls_refs : ∀ (items : DItems) {n : Name} {ct : Commit} {i : Nat},
    (∀ c ∈ items.calls n ct i, ∀ r ∈ c.refs, r ∈ items.symbols ∨ ∃ c' ∈ items.calls n ct i, c'.name = r) ∧
    ∀ it ∈ items.refs n i, it.name ∈ items.symbols ∨ ∃ c' ∈ items.calls n ct i, c'.name = it.name
  | .nil, _, _, _ => by simp [DItems.calls, DItems.refs]
  | .cons e q rest, n, ct, i => by
    obtain ⟨k1, k2⟩ := itemsCalls_refs rest (n := n) (ct := ct) (i := i + 1)
    have hsub : ∀ c ∈ rest.calls n ct (i + 1), c ∈ (DItems.cons e q rest).calls n ct i := by
      intro c hc
      cases e <;> simp only [DItems.calls, List.mem_append] <;> first | exact hc | exact Or.inr hc
    have key : (∃ m, e = .symbol m) ∨
        (DItems.cons e q rest).calls n ct i = e.calls (charName n i) (memberFlags ct) ++ rest.calls n ct (i + 1) := by
      cases e <;> simp [DItems.calls]
    refine ⟨fun c h r hr => ?_, fun it hit => ?_⟩
    · rcases key with ⟨m, rfl⟩ | key
      · simp only [DItems.calls] at h ⊢
        rcases k1 c h r hr with h | h
        · exact .inl (by simp [DItems.symbols, h])
        · exact .inr h
      · rw [key, List.mem_append] at h
        rcases h with h | h
        · rcases calls_refs e c h r hr with h | ⟨c', h, e'⟩
          · exact .inl (by simp [DItems.symbols, h])
          · exact .inr ⟨c', by rw [key, List.mem_append]; exact .inl h, e'⟩
        · rcases k1 c h r hr with h | ⟨c', h, e'⟩
          · exact .inl (by simp [DItems.symbols, h])
          · exact .inr ⟨c', hsub c' h, e'⟩
    · simp only [DItems.refs, List.mem_cons] at hit
      rcases hit with rfl | hit
      · rcases key with ⟨m, rfl⟩ | key
        · exact .inl (by simp [DItems.symbols, memberName, DExpr.symbols])
        · by_cases hs : ∃ m, e = .symbol m
          · obtain ⟨m, rfl⟩ := hs
            exact .inl (by simp [DItems.symbols, memberName, DExpr.symbols])
          · obtain ⟨pre, c', h1, h2, -⟩ := calls_main e (charName n i) (memberFlags ct)
            refine .inr ⟨c', by rw [key, h1]; simp, ?_⟩
            rw [h2]
            cases e <;> first | rfl | exact absurd ⟨_, rfl⟩ hs
      · rcases k2 it hit with h | ⟨c', h, e'⟩
        · exact .inl (by simp [DItems.symbols, h])
        · exact .inr ⟨c', hsub c' h, e'⟩

theorem optionsCalls_refs : ∀ (os : DOptions) {n : Name} {ct : Commit} {i : Nat},
    (∀ c ∈ os.calls n ct i, ∀ r ∈ c.refs, r ∈ os.symbols ∨ ∃ c' ∈ os.calls n ct i, c'.name = r) ∧
    ∀ o ∈ os.refs n i, o ∈ os.symbols ∨ ∃ c' ∈ os.calls n ct i, c'.name = o
  | .nil, _, _, _ => by simp [DOptions.calls, DOptions.refs]
  | .cons e rest, n, ct, i => by
    obtain ⟨k1, k2⟩ := optionsCalls_refs rest (n := n) (ct := ct) (i := i + 1)
    have hsub : ∀ c ∈ rest.calls n ct (i + 1), c ∈ (DOptions.cons e rest).calls n ct i := by
      intro c hc
      cases e <;> simp only [DOptions.calls, List.mem_append] <;> first | exact hc | exact Or.inr hc
    have key : (∃ m, e = .symbol m) ∨
        (DOptions.cons e rest).calls n ct i = e.calls (charName n i) (memberFlags ct) ++ rest.calls n ct (i + 1) := by
      cases e <;> simp [DOptions.calls]
    refine ⟨fun c h r hr => ?_, fun o ho => ?_⟩
    · rcases key with ⟨m, rfl⟩ | key
      · simp only [DOptions.calls] at h ⊢
        rcases k1 c h r hr with h | h
        · exact .inl (by simp [DOptions.symbols, h])
        · exact .inr h
      · rw [key, List.mem_append] at h
        rcases h with h | h
        · rcases calls_refs e c h r hr with h | ⟨c', h, e'⟩
          · exact .inl (by simp [DOptions.symbols, h])
          · exact .inr ⟨c', by rw [key, List.mem_append]; exact .inl h, e'⟩
        · rcases k1 c h r hr with h | ⟨c', h, e'⟩
          · exact .inl (by simp [DOptions.symbols, h])
          · exact .inr ⟨c', hsub c' h, e'⟩
    · simp only [DOptions.refs, List.mem_cons] at ho
      rcases ho with rfl | ho
      · rcases key with ⟨m, rfl⟩ | key
        · exact .inl (by simp [DOptions.symbols, memberName, DExpr.symbols])
        · by_cases hs : ∃ m, e = .symbol m
          · obtain ⟨m, rfl⟩ := hs
            exact .inl (by simp [DOptions.symbols, memberName, DExpr.symbols])
          · obtain ⟨pre, c', h1, h2, -⟩ := calls_main e (charName n i) (memberFlags ct)
            refine .inr ⟨c', by rw [key, h1]; simp, ?_⟩
            rw [h2]
            cases e <;> first | rfl | exact absurd ⟨_, rfl⟩ hs
      · rcases k2 o ho with h | ⟨c', h, e'⟩
        · exact .inl (by simp [DOptions.symbols, h])
        · exact .inr ⟨c', hsub c' h, e'⟩

end

/-- The last definition of a call is the one with its name, and it is not a character. -/
theorem call_mainDef (c : Call) : ∃ x ∈ c.defs, x.1 = c.name ∧ ∀ neg chars ranges, x.2.expr ≠ .char neg chars ranges := by
  cases c with
  | anyChar n ct => exact ⟨_, by simp [Call.defs]; exact .inr rfl, rfl, by simp⟩
  | class_ n ct neg cs rs => exact ⟨_, by simp [Call.defs]; exact .inr rfl, rfl, by simp⟩
  | charSequence n ct cs => exact ⟨_, by simp [Call.defs]; exact .inr rfl, rfl, by simp⟩
  | sequence n ct items => exact ⟨_, by simp [Call.defs]; rfl, rfl, by simp⟩
  | choice n ct os => exact ⟨_, by simp [Call.defs]; rfl, rfl, by simp⟩

/-- The definitions of a document refer only to definitions of the document and to their own members. -/
theorem document_plainRefs {doc : Document} {s : Syntax} (h : Made (documentCalls doc) s) (hsym : PlainSymbols doc) :
    PlainRefs (documentCalls doc) := by
  intro c hc n hn d hd neg chars ranges he
  obtain ⟨e, hdoc, hc⟩ := List.mem_flatMap.1 hc
  rcases calls_refs e.expr c hc n hn with hm | ⟨c', hc', rfl⟩
  · exact grammarOf_char hd he ((hsym e hdoc).2 n hm)
  · obtain ⟨x, hx, hxn, hxe⟩ := call_mainDef c'
    have := call_grammar h (List.mem_flatMap.2 ⟨e, hdoc, hc'⟩) hx
    rw [hxn, hd] at this
    cases this
    exact hxe _ _ _ he

/-! ### Names -/

theorem charName_chars {n : Name} {i : Nat} : ∀ c ∈ charName n i, c ∈ n ∨ c = colon ∨ 48 ≤ c ∧ c ≤ 57 := by
  intro c hc
  unfold charName at hc
  rw [List.mem_append, List.mem_append] at hc
  rcases hc with (h | h) | h
  · exact .inl h
  · exact .inr (.inl (by simpa [runes, colon] using h))
  · rw [runes_toString] at h
    exact .inr (.inr (itoa_digit h))

mutual

theorem calls_chars : ∀ (e : DExpr) {n : Name} {ct : Commit}, ∀ c ∈ e.calls n ct, ∀ x ∈ c.name, x ∈ n ∨ x = colon ∨ 48 ≤ x ∧ x ≤ 57
  | .any, n, ct, c, h, x, hx => by simp only [DExpr.calls, List.mem_singleton] at h; subst h; exact .inl hx
  | .class_ .., n, ct, c, h, x, hx => by simp only [DExpr.calls, List.mem_singleton] at h; subst h; exact .inl hx
  | .chars .., n, ct, c, h, x, hx => by simp only [DExpr.calls, List.mem_singleton] at h; subst h; exact .inl hx
  | .symbol m, n, ct, c, h, x, hx => by simp only [DExpr.calls, List.mem_singleton] at h; subst h; exact .inl hx
  | .seq items, n, ct, c, h, x, hx => by
    simp only [DExpr.calls, List.mem_append, List.mem_singleton] at h
    rcases h with h | rfl
    · exact itemsCalls_chars items c h x hx
    · exact .inl hx
  | .choice os, n, ct, c, h, x, hx => by
    simp only [DExpr.calls, List.mem_append, List.mem_singleton] at h
    rcases h with h | rfl
    · exact optionsCalls_chars os c h x hx
    · exact .inl hx

theorem itemsCalls_chars : ∀ (items : DItems) {n : Name} {ct : Commit} {i : Nat}, ∀ c ∈ items.calls n ct i, ∀ x ∈ c.name,
    x ∈ n ∨ x = colon ∨ 48 ≤ x ∧ x ≤ 57
  | .nil, _, _, _, _, h, _, _ => by simp [DItems.calls] at h
  | .cons e q rest, n, ct, i, c, h, x, hx => by
    have key : c ∈ e.calls (charName n i) (memberFlags ct) ∨ c ∈ rest.calls n ct (i + 1) := by
      cases e <;> simp only [DItems.calls, List.mem_append] at h <;> first | exact h | exact Or.inr h
    rcases key with h | h
    · rcases calls_chars e c h x hx with h | h
      · exact charName_chars x h
      · exact .inr h
    · exact itemsCalls_chars rest c h x hx

theorem optionsCalls_chars : ∀ (os : DOptions) {n : Name} {ct : Commit} {i : Nat}, ∀ c ∈ os.calls n ct i, ∀ x ∈ c.name,
    x ∈ n ∨ x = colon ∨ 48 ≤ x ∧ x ≤ 57
  | .nil, _, _, _, _, h, _, _ => by simp [DOptions.calls] at h
  | .cons e rest, n, ct, i, c, h, x, hx => by
    have key : c ∈ e.calls (charName n i) (memberFlags ct) ∨ c ∈ rest.calls n ct (i + 1) := by
      cases e <;> simp only [DOptions.calls, List.mem_append] at h <;> first | exact h | exact Or.inr h
    rcases key with h | h
    · rcases calls_chars e c h x hx with h | h
      · exact charName_chars x h
      · exact .inr h
    · exact optionsCalls_chars rest c h x hx

end

theorem WrittenDefinitions.names {doc : Document} {t : List Rune} (h : WrittenDefinitions doc t) : ∀ d ∈ doc, WrittenSymbol d.name := by
  induction h with
  | one h =>
    intro d hd
    simp only [List.mem_singleton] at hd
    subst hd
    cases h
    assumption
  | cons h _ _ ih =>
    intro d hd
    rcases List.mem_cons.1 hd with rfl | hd
    · cases h
      assumption
    · exact ih d hd

theorem WrittenDocument.names {doc : Document} {t : List Rune} (h : WrittenDocument doc t) : ∀ d ∈ doc, WrittenSymbol d.name := by
  cases h with
  | empty => simp
  | definitions _ h _ _ => exact WrittenDefinitions.names h

theorem document_quotable {doc : Document} {t : List Rune} (h : WrittenDocument doc t)
    (hn : ∀ d ∈ doc, ∀ x ∈ d.name, x ≠ 0 ∧ x ≠ 0xFEFF) : ∀ c ∈ documentCalls doc, Quotable c.name := by
  intro c hc x hx
  obtain ⟨d, hd, hc⟩ := List.mem_flatMap.1 hc
  rcases calls_chars d.expr c hc x hx with h1 | rfl | h1
  · have h2 := (WrittenDocument.names h d hd).chars x h1
    refine ⟨?_, ?_, ?_, hn d hd x h1⟩ <;> rintro rfl <;> revert h2 <;> decide
  · decide
  · refine ⟨?_, ?_, ?_, ?_, ?_⟩ <;> rintro rfl <;> revert h1 <;> decide

/-! ### The syntax of a document -/

/-- Apart from the members, which have a colon in their names, there is one call with the flags of the definition. -/
theorem calls_user (e : DExpr) {n : Name} {ct : Commit} {c : Call} (h : c ∈ e.calls n ct) : colon ∈ c.name ∨ c.commit = ct := by
  cases e with
  | any => simp only [DExpr.calls, List.mem_singleton] at h; subst h; exact .inr rfl
  | class_ => simp only [DExpr.calls, List.mem_singleton] at h; subst h; exact .inr rfl
  | chars => simp only [DExpr.calls, List.mem_singleton] at h; subst h; exact .inr rfl
  | symbol => simp only [DExpr.calls, List.mem_singleton] at h; subst h; exact .inr rfl
  | seq items =>
    simp only [DExpr.calls, List.mem_append, List.mem_singleton] at h
    rcases h with h | rfl
    · exact .inl (itemsCalls_names items c h)
    · exact .inr rfl
  | choice os =>
    simp only [DExpr.calls, List.mem_append, List.mem_singleton] at h
    rcases h with h | rfl
    · exact .inl (optionsCalls_names os c h)
    · exact .inr rfl

theorem internalCalls_acts : ∀ {cs : List Call} {s s' : Syntax}, s.internalCalls cs = (s', none) →
    s.acts (cs.map .document) = some s'
  | [], s, s', h => by cases h; rfl
  | c :: cs, s, s', h => by
    simp only [Syntax.internalCalls] at h
    simp only [List.map_cons, Syntax.acts, Syntax.act]
    generalize s.internalCall c = x at h
    obtain ⟨s1, e⟩ := x
    cases e with
    | none => exact internalCalls_acts h
    | some e => cases h

/-- Reading the text of a document without an error makes the definition calls of the document. -/
theorem read_calls {n : Nat} {text : List Rune} {rend : Option Nat} {doc : Document} {s : Syntax} (hw : WrittenDocument doc text)
    (h : ({} : Syntax).ReadSyntax (selfParse n text rend) = .ok (s, none)) :
    ({} : Syntax).internalCalls (documentCalls doc) = (s, none) := by
  cases hp : selfParse n text rend with
  | panic => rw [hp] at h; simp [Syntax.ReadSyntax] at h
  | oof => rw [hp] at h; simp [Syntax.ReadSyntax] at h
  | ok x =>
    cases x with
    | error e => rw [hp] at h; simp [Syntax.ReadSyntax] at h
    | ok tree =>
      obtain ⟨-, -, doc', hw', hd⟩ := C30_accepted hp
      obtain rfl := C30_unambiguous hw hw'
      rw [hp, C30_steps hd] at h
      have := (steps_none (Res.ok.inj h)).1
      rwa [callsOf_document] at this

theorem definitionPart_noColon {n : Name} (h : NoColon n) : definitionPart n = n := by
  unfold definitionPart
  have : n.findIdx? (· == colon) = none := by
    rw [List.findIdx?_eq_none_iff]
    intro x hx
    have : x ≠ colon := fun e => h (e ▸ hx)
    simpa using this
  rw [this]

theorem SameOutcome.tree {n : Name} {x : Res Syntax.ParseResult} {y : Res (Except Err Node)} (h : SameOutcome n x y) (t : Node) :
    x = .ok (.node t) ↔ y = .ok (.ok t) := by
  cases h with
  | same x => cases x <;> simp [asResult]
  | root => simp
  | panic => simp
  | oof => simp

end Treerack
