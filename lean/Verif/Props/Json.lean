import Verif.Proofs.JsonShow
import Verif.Props.Command

/-
C48: the text printed by the show command.
-/

namespace Treerack
open Spec Samples

/-- C48: the printed text is JSON, and its value is the tree.  (Partial: the indentation consists of spaces, see the
counterexample.) -/
theorem C48_json_partial {pretty : Bool} {indent : List Rune} (h : ∀ c ∈ indent, Json.space c = true) (o : OutNode) :
    readJson (showText pretty indent o) = some (jsonOf o) ∧ readJson (showText pretty indent o ++ [10]) = some (jsonOf o) := by
  have := Json.lex_showText (pretty := pretty) h o
  exact ⟨Json.readJson_lex this, Json.readJson_lex (by rw [Json.lex_trailing (by decide)]; exact this)⟩

/-- C48: the printed text is JSON as it is defined by RFC 8259, when the names and the texts of the tree consist of unicode code
points.  (Partial: as above.) -/
theorem C48_rfc_partial {pretty : Bool} {indent : List Rune} (h : ∀ c ∈ indent, Json.space c = true) {o : OutNode}
    (ho : ∀ c ∈ outChars o, c ≤ 0x10FFFF) :
    JsonText.Text JsonText.rfc (showText pretty indent o) ∧ JsonText.Text JsonText.rfc (showText pretty indent o ++ [10]) := by
  obtain ⟨h1, h2⟩ := C48_json_partial (pretty := pretty) h o
  have hs := showText_small (pretty := pretty) h ho
  exact ⟨readJson_text hs h1, readJson_text (small_append hs (by decide)) h2⟩

/-- C48: different trees are printed as different texts, also with different flags. -/
theorem C48_distinct_partial {pretty pretty' : Bool} {indent indent' : List Rune} (h : ∀ c ∈ indent, Json.space c = true)
    (h' : ∀ c ∈ indent', Json.space c = true) {o o' : OutNode} (he : showText pretty indent o = showText pretty' indent' o') :
    o = o' := by
  have h1 := (C48_json_partial (pretty := pretty) h o).1
  rw [he, (C48_json_partial (pretty := pretty') h' o').1] at h1
  exact (Json.jsonOf_inj (Option.some.inj h1)).symm

/-- Without the flags pretty and indent, and with the flag pretty alone, there is no condition. -/
theorem C48_plain (pretty : Bool) (o : OutNode) : readJson (showText pretty [] o) = some (jsonOf o) :=
  (C48_json_partial (by simp) o).1

/-- C48 does not hold for every indentation: with `-indent x` the printed text is not JSON. -/
theorem C48_indent_counterexample : readJson (showText false (runes "x") (.mk (runes "a") 0 1 (runes "b") [])) = none := by
  have : (readJson (showText false (runes "x") (.mk (runes "a") 0 1 (runes "b") []))).isNone = true := by decide +kernel
  simpa using this

/-- A tree with a quote, a new line and a character that is escaped because of HTML. -/
def printedSample : OutNode := .mk (runes "s") 0 4 [] [.mk (runes "a") 0 3 (runes "<\"\n") [], .mk (runes "b") 3 3 [] []]

example : ∀ c ∈ outChars printedSample, c ≤ 0x10FFFF := by decide

example : marshal printedSample = runes
    "{\"name\":\"s\",\"from\":0,\"to\":4,\"nodes\":[{\"name\":\"a\",\"from\":0,\"to\":3,\"text\":\"\\u003c\\\"\\n\"},{\"name\":\"b\",\"from\":3,\"to\":3}]}" := by
  decide +kernel

example : showText false (runes "  ") printedSample = runes
    "{\n  \"name\": \"s\",\n  \"from\": 0,\n  \"to\": 4,\n  \"nodes\": [\n    {\n      \"name\": \"a\",\n      \"from\": 0,\n      \"to\": 3,\n      \"text\": \"\\u003c\\\"\\n\"\n    },\n    {\n      \"name\": \"b\",\n      \"from\": 3,\n      \"to\": 3\n    }\n  ]\n}" := by
  decide +kernel

end Treerack
