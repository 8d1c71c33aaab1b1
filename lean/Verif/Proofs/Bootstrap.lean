import Verif.Props.Written
import Verif.Props.Generate
import Verif.Model.Boot
import Verif.Proofs.ReadDoc

/-
The syntax that is read from syntax.treerack: the document, the definition calls, and the generated program.
-/

namespace Treerack

open Spec

set_option maxRecDepth 100000

/-! ### The definition calls -/

/-- The definition calls of syntax.treerack; the names are written as lists of characters, for a faster check. -/
def syntaxCalls : List Call := [
  .charSequence ([119, 115, 99, 104, 97, 114, 58, 48]) { alias := true } ([32]),
  .charSequence ([119, 115, 99, 104, 97, 114, 58, 49]) { alias := true } ([9]),
  .charSequence ([119, 115, 99, 104, 97, 114, 58, 50]) { alias := true } ([10]),
  .charSequence ([119, 115, 99, 104, 97, 114, 58, 51]) { alias := true } ([8]),
  .charSequence ([119, 115, 99, 104, 97, 114, 58, 52]) { alias := true } ([12]),
  .charSequence ([119, 115, 99, 104, 97, 114, 58, 53]) { alias := true } ([13]),
  .charSequence ([119, 115, 99, 104, 97, 114, 58, 54]) { alias := true } ([11]),
  .choice ([119, 115, 99, 104, 97, 114]) { alias := true, userDefined := true } [[119, 115, 99, 104, 97, 114, 58, 48], [119,
      115, 99, 104, 97, 114, 58, 49], [119, 115, 99, 104, 97, 114, 58, 50], [119, 115, 99, 104, 97, 114, 58, 51], [119, 115, 99,
      104, 97, 114, 58, 52], [119, 115, 99, 104, 97, 114, 58, 53], [119, 115, 99, 104, 97, 114, 58, 54]],
  .choice ([119, 115, 99]) { whitespace := true, userDefined := true } [[119, 115, 99, 104, 97, 114], [99, 111, 109, 109, 101,
      110, 116]],
  .charSequence ([98, 108, 111, 99, 107, 45, 99, 111, 109, 109, 101, 110, 116, 58, 48])
      { alias := true, noWhitespace := true } ([47, 42]),
  .charSequence ([98, 108, 111, 99, 107, 45, 99, 111, 109, 109, 101, 110, 116, 58, 49, 58, 48, 58, 48])
      { alias := true, noWhitespace := true } ([42]),
  .class_ ([98, 108, 111, 99, 107, 45, 99, 111, 109, 109, 101, 110, 116, 58, 49, 58, 48, 58, 49])
      { alias := true, noWhitespace := true } true ([47]) [],
  .sequence ([98, 108, 111, 99, 107, 45, 99, 111, 109, 109, 101, 110, 116, 58, 49, 58, 48])
      { alias := true, noWhitespace := true } [⟨[98, 108, 111, 99, 107, 45, 99, 111, 109, 109, 101, 110, 116, 58, 49, 58, 48, 58,
      48], 0, 0⟩, ⟨[98, 108, 111, 99, 107, 45, 99, 111, 109, 109, 101, 110, 116, 58, 49, 58, 48, 58, 49], 0, 0⟩],
  .class_ ([98, 108, 111, 99, 107, 45, 99, 111, 109, 109, 101, 110, 116, 58, 49, 58, 49])
      { alias := true, noWhitespace := true } true ([42]) [],
  .choice ([98, 108, 111, 99, 107, 45, 99, 111, 109, 109, 101, 110, 116, 58, 49]) { alias := true, noWhitespace := true }
      [[98, 108, 111, 99, 107, 45, 99, 111, 109, 109, 101, 110, 116, 58, 49, 58, 48], [98, 108, 111, 99, 107, 45, 99, 111, 109,
      109, 101, 110, 116, 58, 49, 58, 49]],
  .charSequence ([98, 108, 111, 99, 107, 45, 99, 111, 109, 109, 101, 110, 116, 58, 50])
      { alias := true, noWhitespace := true } ([42, 47]),
  .sequence ([98, 108, 111, 99, 107, 45, 99, 111, 109, 109, 101, 110, 116])
      { alias := true, noWhitespace := true, userDefined := true } [⟨[98, 108, 111, 99, 107, 45, 99, 111, 109, 109, 101, 110, 116,
      58, 48], 0, 0⟩, ⟨[98, 108, 111, 99, 107, 45, 99, 111, 109, 109, 101, 110, 116, 58, 49], 0, -1⟩, ⟨[98, 108, 111, 99, 107, 45,
      99, 111, 109, 109, 101, 110, 116, 58, 50], 0, 0⟩],
  .charSequence ([108, 105, 110, 101, 45, 99, 111, 109, 109, 101, 110, 116, 58, 48]) { alias := true, noWhitespace := true }
      ([47, 47]),
  .class_ ([108, 105, 110, 101, 45, 99, 111, 109, 109, 101, 110, 116, 58, 49]) { alias := true, noWhitespace := true } true
      ([10]) [],
  .sequence ([108, 105, 110, 101, 45, 99, 111, 109, 109, 101, 110, 116])
      { alias := true, noWhitespace := true, userDefined := true } [⟨[108, 105, 110, 101, 45, 99, 111, 109, 109, 101, 110, 116,
      58, 48], 0, 0⟩, ⟨[108, 105, 110, 101, 45, 99, 111, 109, 109, 101, 110, 116, 58, 49], 0, -1⟩],
  .choice ([99, 111, 109, 109, 101, 110, 116, 45, 115, 101, 103, 109, 101, 110, 116])
      { alias := true, noWhitespace := true, userDefined := true } [[108, 105, 110, 101, 45, 99, 111, 109, 109, 101, 110, 116],
      [98, 108, 111, 99, 107, 45, 99, 111, 109, 109, 101, 110, 116]],
  .charSequence ([119, 115, 45, 110, 111, 45, 110, 108, 58, 48]) { alias := true, noWhitespace := true } ([32]),
  .charSequence ([119, 115, 45, 110, 111, 45, 110, 108, 58, 49]) { alias := true, noWhitespace := true } ([9]),
  .charSequence ([119, 115, 45, 110, 111, 45, 110, 108, 58, 50]) { alias := true, noWhitespace := true } ([8]),
  .charSequence ([119, 115, 45, 110, 111, 45, 110, 108, 58, 51]) { alias := true, noWhitespace := true } ([12]),
  .charSequence ([119, 115, 45, 110, 111, 45, 110, 108, 58, 52]) { alias := true, noWhitespace := true } ([13]),
  .charSequence ([119, 115, 45, 110, 111, 45, 110, 108, 58, 53]) { alias := true, noWhitespace := true } ([11]),
  .choice ([119, 115, 45, 110, 111, 45, 110, 108]) { alias := true, noWhitespace := true, userDefined := true } [[119, 115,
      45, 110, 111, 45, 110, 108, 58, 48], [119, 115, 45, 110, 111, 45, 110, 108, 58, 49], [119, 115, 45, 110, 111, 45, 110, 108,
      58, 50], [119, 115, 45, 110, 111, 45, 110, 108, 58, 51], [119, 115, 45, 110, 111, 45, 110, 108, 58, 52], [119, 115, 45, 110,
      111, 45, 110, 108, 58, 53]],
  .charSequence ([99, 111, 109, 109, 101, 110, 116, 58, 49, 58, 49]) { alias := true, noWhitespace := true } ([10]),
  .sequence ([99, 111, 109, 109, 101, 110, 116, 58, 49]) { alias := true, noWhitespace := true } [⟨[119, 115, 45, 110, 111,
      45, 110, 108], 0, -1⟩, ⟨[99, 111, 109, 109, 101, 110, 116, 58, 49, 58, 49], 0, 1⟩, ⟨[119, 115, 45, 110, 111, 45, 110, 108],
      0, -1⟩, ⟨[99, 111, 109, 109, 101, 110, 116, 45, 115, 101, 103, 109, 101, 110, 116], 0, 0⟩],
  .sequence ([99, 111, 109, 109, 101, 110, 116]) { noWhitespace := true, userDefined := true } [⟨[99, 111, 109, 109, 101, 110,
      116, 45, 115, 101, 103, 109, 101, 110, 116], 0, 0⟩, ⟨[99, 111, 109, 109, 101, 110, 116, 58, 49], 0, -1⟩],
  .charSequence ([97, 110, 121, 45, 99, 104, 97, 114]) { userDefined := true } ([46]),
  .charSequence ([99, 108, 97, 115, 115, 45, 110, 111, 116]) { userDefined := true } ([94]),
  .class_ ([99, 108, 97, 115, 115, 45, 99, 104, 97, 114, 58, 48]) { alias := true, noWhitespace := true } true ([92, 91, 93,
      94, 45]) [],
  .charSequence ([99, 108, 97, 115, 115, 45, 99, 104, 97, 114, 58, 49, 58, 48]) { alias := true, noWhitespace := true } ([92]),
  .anyChar ([99, 108, 97, 115, 115, 45, 99, 104, 97, 114, 58, 49, 58, 49]) { alias := true, noWhitespace := true },
  .sequence ([99, 108, 97, 115, 115, 45, 99, 104, 97, 114, 58, 49]) { alias := true, noWhitespace := true } [⟨[99, 108, 97,
      115, 115, 45, 99, 104, 97, 114, 58, 49, 58, 48], 0, 0⟩, ⟨[99, 108, 97, 115, 115, 45, 99, 104, 97, 114, 58, 49, 58, 49], 0,
      0⟩],
  .choice ([99, 108, 97, 115, 115, 45, 99, 104, 97, 114]) { noWhitespace := true, userDefined := true } [[99, 108, 97, 115,
      115, 45, 99, 104, 97, 114, 58, 48], [99, 108, 97, 115, 115, 45, 99, 104, 97, 114, 58, 49]],
  .charSequence ([99, 104, 97, 114, 45, 114, 97, 110, 103, 101, 58, 49]) { alias := true, noWhitespace := true } ([45]),
  .sequence ([99, 104, 97, 114, 45, 114, 97, 110, 103, 101]) { noWhitespace := true, userDefined := true } [⟨[99, 108, 97,
      115, 115, 45, 99, 104, 97, 114], 0, 0⟩, ⟨[99, 104, 97, 114, 45, 114, 97, 110, 103, 101, 58, 49], 0, 0⟩, ⟨[99, 108, 97, 115,
      115, 45, 99, 104, 97, 114], 0, 0⟩],
  .charSequence ([99, 104, 97, 114, 45, 99, 108, 97, 115, 115, 58, 48]) { alias := true, noWhitespace := true } ([91]),
  .choice ([99, 104, 97, 114, 45, 99, 108, 97, 115, 115, 58, 50]) { alias := true, noWhitespace := true } [[99, 108, 97, 115,
      115, 45, 99, 104, 97, 114], [99, 104, 97, 114, 45, 114, 97, 110, 103, 101]],
  .charSequence ([99, 104, 97, 114, 45, 99, 108, 97, 115, 115, 58, 51]) { alias := true, noWhitespace := true } ([93]),
  .sequence ([99, 104, 97, 114, 45, 99, 108, 97, 115, 115]) { noWhitespace := true, userDefined := true } [⟨[99, 104, 97, 114,
      45, 99, 108, 97, 115, 115, 58, 48], 0, 0⟩, ⟨[99, 108, 97, 115, 115, 45, 110, 111, 116], 0, 1⟩, ⟨[99, 104, 97, 114, 45, 99,
      108, 97, 115, 115, 58, 50], 0, -1⟩, ⟨[99, 104, 97, 114, 45, 99, 108, 97, 115, 115, 58, 51], 0, 0⟩],
  .class_ ([115, 101, 113, 117, 101, 110, 99, 101, 45, 99, 104, 97, 114, 58, 48]) { alias := true, noWhitespace := true } true
      ([92, 34]) [],
  .charSequence ([115, 101, 113, 117, 101, 110, 99, 101, 45, 99, 104, 97, 114, 58, 49, 58, 48])
      { alias := true, noWhitespace := true } ([92]),
  .anyChar ([115, 101, 113, 117, 101, 110, 99, 101, 45, 99, 104, 97, 114, 58, 49, 58, 49])
      { alias := true, noWhitespace := true },
  .sequence ([115, 101, 113, 117, 101, 110, 99, 101, 45, 99, 104, 97, 114, 58, 49]) { alias := true, noWhitespace := true }
      [⟨[115, 101, 113, 117, 101, 110, 99, 101, 45, 99, 104, 97, 114, 58, 49, 58, 48], 0, 0⟩, ⟨[115, 101, 113, 117, 101, 110, 99,
      101, 45, 99, 104, 97, 114, 58, 49, 58, 49], 0, 0⟩],
  .choice ([115, 101, 113, 117, 101, 110, 99, 101, 45, 99, 104, 97, 114]) { noWhitespace := true, userDefined := true } [[115,
      101, 113, 117, 101, 110, 99, 101, 45, 99, 104, 97, 114, 58, 48], [115, 101, 113, 117, 101, 110, 99, 101, 45, 99, 104, 97,
      114, 58, 49]],
  .charSequence ([99, 104, 97, 114, 45, 115, 101, 113, 117, 101, 110, 99, 101, 58, 48])
      { alias := true, noWhitespace := true } ([34]),
  .charSequence ([99, 104, 97, 114, 45, 115, 101, 113, 117, 101, 110, 99, 101, 58, 50])
      { alias := true, noWhitespace := true } ([34]),
  .sequence ([99, 104, 97, 114, 45, 115, 101, 113, 117, 101, 110, 99, 101]) { noWhitespace := true, userDefined := true }
      [⟨[99, 104, 97, 114, 45, 115, 101, 113, 117, 101, 110, 99, 101, 58, 48], 0, 0⟩, ⟨[115, 101, 113, 117, 101, 110, 99, 101, 45,
      99, 104, 97, 114], 0, -1⟩, ⟨[99, 104, 97, 114, 45, 115, 101, 113, 117, 101, 110, 99, 101, 58, 50], 0, 0⟩],
  .choice ([116, 101, 114, 109, 105, 110, 97, 108]) { alias := true, userDefined := true } [[97, 110, 121, 45, 99, 104, 97,
      114], [99, 104, 97, 114, 45, 99, 108, 97, 115, 115], [99, 104, 97, 114, 45, 115, 101, 113, 117, 101, 110, 99, 101]],
  .class_ ([115, 121, 109, 98, 111, 108, 58, 48]) { alias := true, noWhitespace := true } true ([92, 32, 10, 9, 8, 12, 13, 11,
      47, 46, 91, 93, 34, 123, 125, 94, 43, 42, 63, 124, 40, 41, 58, 61, 59]) [],
  .sequence ([115, 121, 109, 98, 111, 108]) { noWhitespace := true, userDefined := true } [⟨[115, 121, 109, 98, 111, 108, 58,
      48], 1, -1⟩],
  .charSequence ([103, 114, 111, 117, 112, 58, 48]) { alias := true } ([40]),
  .charSequence ([103, 114, 111, 117, 112, 58, 50]) { alias := true } ([41]),
  .sequence ([103, 114, 111, 117, 112]) { alias := true, userDefined := true } [⟨[103, 114, 111, 117, 112, 58, 48], 0, 0⟩,
      ⟨[101, 120, 112, 114, 101, 115, 115, 105, 111, 110], 0, 0⟩, ⟨[103, 114, 111, 117, 112, 58, 50], 0, 0⟩],
  .class_ ([110, 117, 109, 98, 101, 114, 58, 48]) { alias := true, noWhitespace := true } false ([]) [(48, 57)],
  .sequence ([110, 117, 109, 98, 101, 114]) { alias := true, noWhitespace := true, userDefined := true } [⟨[110, 117, 109, 98,
      101, 114, 58, 48], 1, -1⟩],
  .sequence ([99, 111, 117, 110, 116]) { userDefined := true } [⟨[110, 117, 109, 98, 101, 114], 0, 0⟩],
  .charSequence ([99, 111, 117, 110, 116, 45, 113, 117, 97, 110, 116, 105, 102, 105, 101, 114, 58, 48]) { alias := true } ([123]),
  .charSequence ([99, 111, 117, 110, 116, 45, 113, 117, 97, 110, 116, 105, 102, 105, 101, 114, 58, 50]) { alias := true } ([125]),
  .sequence ([99, 111, 117, 110, 116, 45, 113, 117, 97, 110, 116, 105, 102, 105, 101, 114]) { userDefined := true } [⟨[99,
      111, 117, 110, 116, 45, 113, 117, 97, 110, 116, 105, 102, 105, 101, 114, 58, 48], 0, 0⟩, ⟨[99, 111, 117, 110, 116], 0, 0⟩,
      ⟨[99, 111, 117, 110, 116, 45, 113, 117, 97, 110, 116, 105, 102, 105, 101, 114, 58, 50], 0, 0⟩],
  .sequence ([114, 97, 110, 103, 101, 45, 102, 114, 111, 109]) { userDefined := true } [⟨[110, 117, 109, 98, 101, 114], 0, 0⟩],
  .sequence ([114, 97, 110, 103, 101, 45, 116, 111]) { userDefined := true } [⟨[110, 117, 109, 98, 101, 114], 0, 0⟩],
  .charSequence ([114, 97, 110, 103, 101, 45, 113, 117, 97, 110, 116, 105, 102, 105, 101, 114, 58, 48]) { alias := true } ([123]),
  .charSequence ([114, 97, 110, 103, 101, 45, 113, 117, 97, 110, 116, 105, 102, 105, 101, 114, 58, 50]) { alias := true } ([44]),
  .charSequence ([114, 97, 110, 103, 101, 45, 113, 117, 97, 110, 116, 105, 102, 105, 101, 114, 58, 52]) { alias := true } ([125]),
  .sequence ([114, 97, 110, 103, 101, 45, 113, 117, 97, 110, 116, 105, 102, 105, 101, 114]) { userDefined := true } [⟨[114,
      97, 110, 103, 101, 45, 113, 117, 97, 110, 116, 105, 102, 105, 101, 114, 58, 48], 0, 0⟩, ⟨[114, 97, 110, 103, 101, 45, 102,
      114, 111, 109], 0, 1⟩, ⟨[114, 97, 110, 103, 101, 45, 113, 117, 97, 110, 116, 105, 102, 105, 101, 114, 58, 50], 0, 0⟩, ⟨[114,
      97, 110, 103, 101, 45, 116, 111], 0, 1⟩, ⟨[114, 97, 110, 103, 101, 45, 113, 117, 97, 110, 116, 105, 102, 105, 101, 114, 58,
      52], 0, 0⟩],
  .charSequence ([111, 110, 101, 45, 111, 114, 45, 109, 111, 114, 101]) { userDefined := true } ([43]),
  .charSequence ([122, 101, 114, 111, 45, 111, 114, 45, 109, 111, 114, 101]) { userDefined := true } ([42]),
  .charSequence ([122, 101, 114, 111, 45, 111, 114, 45, 111, 110, 101]) { userDefined := true } ([63]),
  .choice ([113, 117, 97, 110, 116, 105, 116, 121]) { alias := true, userDefined := true } [[99, 111, 117, 110, 116, 45, 113,
      117, 97, 110, 116, 105, 102, 105, 101, 114], [114, 97, 110, 103, 101, 45, 113, 117, 97, 110, 116, 105, 102, 105, 101, 114],
      [111, 110, 101, 45, 111, 114, 45, 109, 111, 114, 101], [122, 101, 114, 111, 45, 111, 114, 45, 109, 111, 114, 101], [122,
      101, 114, 111, 45, 111, 114, 45, 111, 110, 101]],
  .choice ([105, 116, 101, 109, 58, 48]) { alias := true, noWhitespace := true } [[116, 101, 114, 109, 105, 110, 97, 108],
      [115, 121, 109, 98, 111, 108], [103, 114, 111, 117, 112]],
  .sequence ([105, 116, 101, 109]) { noWhitespace := true, userDefined := true } [⟨[105, 116, 101, 109, 58, 48], 0, 0⟩, ⟨[113,
      117, 97, 110, 116, 105, 116, 121], 0, 1⟩],
  .sequence ([115, 101, 113, 117, 101, 110, 99, 101]) { userDefined := true } [⟨[105, 116, 101, 109], 1, -1⟩],
  .choice ([111, 112, 116, 105, 111, 110]) { alias := true, userDefined := true } [[116, 101, 114, 109, 105, 110, 97, 108],
      [115, 121, 109, 98, 111, 108], [103, 114, 111, 117, 112], [115, 101, 113, 117, 101, 110, 99, 101]],
  .charSequence ([99, 104, 111, 105, 99, 101, 58, 49, 58, 48]) { alias := true } ([124]),
  .sequence ([99, 104, 111, 105, 99, 101, 58, 49]) { alias := true } [⟨[99, 104, 111, 105, 99, 101, 58, 49, 58, 48], 0, 0⟩,
      ⟨[111, 112, 116, 105, 111, 110], 0, 0⟩],
  .sequence ([99, 104, 111, 105, 99, 101]) { userDefined := true } [⟨[111, 112, 116, 105, 111, 110], 0, 0⟩, ⟨[99, 104, 111,
      105, 99, 101, 58, 49], 1, -1⟩],
  .choice ([101, 120, 112, 114, 101, 115, 115, 105, 111, 110]) { alias := true, userDefined := true } [[116, 101, 114, 109,
      105, 110, 97, 108], [115, 121, 109, 98, 111, 108], [103, 114, 111, 117, 112], [115, 101, 113, 117, 101, 110, 99, 101], [99,
      104, 111, 105, 99, 101]],
  .charSequence ([97, 108, 105, 97, 115]) { userDefined := true } ([97, 108, 105, 97, 115]),
  .charSequence ([119, 115]) { userDefined := true } ([119, 115]),
  .charSequence ([110, 111, 119, 115]) { userDefined := true } ([110, 111, 119, 115]),
  .charSequence ([107, 119]) { userDefined := true } ([107, 119]),
  .charSequence ([110, 111, 107, 119]) { userDefined := true } ([110, 111, 107, 119]),
  .charSequence ([102, 97, 105, 108, 112, 97, 115, 115]) { userDefined := true } ([102, 97, 105, 108, 112, 97, 115, 115]),
  .charSequence ([114, 111, 111, 116]) { userDefined := true } ([114, 111, 111, 116]),
  .choice ([102, 108, 97, 103]) { alias := true, userDefined := true } [[97, 108, 105, 97, 115], [119, 115], [110, 111, 119,
      115], [107, 119], [110, 111, 107, 119], [102, 97, 105, 108, 112, 97, 115, 115], [114, 111, 111, 116]],
  .charSequence ([100, 101, 102, 105, 110, 105, 116, 105, 111, 110, 45, 110, 97, 109, 101, 58, 49, 58, 48])
      { alias := true, noWhitespace := true } ([58]),
  .sequence ([100, 101, 102, 105, 110, 105, 116, 105, 111, 110, 45, 110, 97, 109, 101, 58, 49])
      { alias := true, noWhitespace := true } [⟨[100, 101, 102, 105, 110, 105, 116, 105, 111, 110, 45, 110, 97, 109, 101, 58, 49,
      58, 48], 0, 0⟩, ⟨[102, 108, 97, 103], 0, 0⟩],
  .sequence ([100, 101, 102, 105, 110, 105, 116, 105, 111, 110, 45, 110, 97, 109, 101])
      { alias := true, noWhitespace := true, userDefined := true } [⟨[115, 121, 109, 98, 111, 108], 0, 0⟩, ⟨[100, 101, 102, 105,
      110, 105, 116, 105, 111, 110, 45, 110, 97, 109, 101, 58, 49], 0, -1⟩],
  .charSequence ([100, 101, 102, 105, 110, 105, 116, 105, 111, 110, 58, 49]) { alias := true } ([61]),
  .sequence ([100, 101, 102, 105, 110, 105, 116, 105, 111, 110]) { userDefined := true } [⟨[100, 101, 102, 105, 110, 105, 116,
      105, 111, 110, 45, 110, 97, 109, 101], 0, 0⟩, ⟨[100, 101, 102, 105, 110, 105, 116, 105, 111, 110, 58, 49], 0, 0⟩, ⟨[101,
      120, 112, 114, 101, 115, 115, 105, 111, 110], 0, 0⟩],
  .charSequence ([100, 101, 102, 105, 110, 105, 116, 105, 111, 110, 115, 58, 49, 58, 48]) { alias := true } ([59]),
  .sequence ([100, 101, 102, 105, 110, 105, 116, 105, 111, 110, 115, 58, 49]) { alias := true } [⟨[100, 101, 102, 105, 110,
      105, 116, 105, 111, 110, 115, 58, 49, 58, 48], 1, -1⟩, ⟨[100, 101, 102, 105, 110, 105, 116, 105, 111, 110], 0, 0⟩],
  .sequence ([100, 101, 102, 105, 110, 105, 116, 105, 111, 110, 115]) { alias := true, userDefined := true } [⟨[100, 101, 102,
      105, 110, 105, 116, 105, 111, 110], 0, 0⟩, ⟨[100, 101, 102, 105, 110, 105, 116, 105, 111, 110, 115, 58, 49], 0, -1⟩],
  .charSequence ([115, 121, 110, 116, 97, 120, 58, 48]) { alias := true } ([59]),
  .charSequence ([115, 121, 110, 116, 97, 120, 58, 50]) { alias := true } ([59]),
  .sequence ([115, 121, 110, 116, 97, 120]) { root := true, userDefined := true } [⟨[115, 121, 110, 116, 97, 120, 58, 48], 0,
      -1⟩, ⟨[100, 101, 102, 105, 110, 105, 116, 105, 111, 110, 115], 0, 1⟩, ⟨[115, 121, 110, 116, 97, 120, 58, 50], 0, -1⟩]]

/-- The document in syntax.treerack. -/
theorem syntax_read : (readDocument 2500 syntaxText).map (fun doc => (doc.fits, documentCalls doc)) = some (true, syntaxCalls) := by
  decide +kernel

theorem syntax_written : ∃ doc, WrittenDocument doc syntaxText ∧ doc.fits = true ∧ documentCalls doc = syntaxCalls := by
  have h := syntax_read
  obtain ⟨doc, hd, e⟩ := Option.map_eq_some_iff.1 h
  simp only [Prod.mk.injEq] at e
  exact ⟨doc, readDocument_sound hd, e⟩

theorem syntax_valid : replacementChar ∉ syntaxText := by decide +kernel

/-! ### The conditions -/

theorem syntax_plainRefs : PlainRefs syntaxCalls := by
  have h : (syntaxCalls.all fun c => c.refs.all fun n =>
      match grammarOf syntaxCalls n with
      | some d => match d.expr with
        | .char _ _ _ => false
        | _ => true
      | none => true) = true := by decide +kernel
  intro c hc n hn d hd neg chars ranges he
  have := List.all_eq_true.1 (List.all_eq_true.1 h c hc) n hn
  rw [hd] at this
  simp only [he] at this
  cases this

theorem syntax_wsSafe : WsSafe syntaxCalls := by
  intro _
  refine ⟨.inr ?_, ?_⟩
  · unfold MemberName Numbered
    decide +kernel
  · intro c hc hk
    have : ∀ c ∈ syntaxCalls, c.commit.keyword = false := by decide +kernel
    rw [this c hc] at hk
    cases hk

theorem syntax_root : rootOf syntaxCalls = some (runes "syntax") := by decide +kernel

/-! ### Corresponding tables -/

/-- The addresses are the same, and in the table. -/
def Within (n : Nat) (p q : Nat) : Prop := p = q ∧ 1 ≤ p ∧ p ≤ n

def kindOk (P : Bool) (n : Nat) : PKind → PKind → Bool
  | .char neg chars ranges, .char neg' chars' ranges' => !P || decide (neg = neg' ∧ chars = chars' ∧ ranges = ranges')
  | .choice os, .choice os' => decide (os = os') && os.all fun o => decide ((1 : Nat) ≤ o ∧ (o : Nat) ≤ n)
  | .seq is ranges ac, .seq is' ranges' ac' =>
    decide (is = is' ∧ ranges = ranges' ∧ ac = ac') && is.all fun o => decide ((1 : Nat) ≤ o ∧ (o : Nat) ≤ n)
  | _, _ => false

def defOk (P B : Bool) (d e : PDef) : Bool :=
  decide (d.id = e.id ∧ d.commit = e.commit ∧ (B = true → d.commit.alias = false → d.name = e.name) ∧
    (P = true → d.commit.reports = true → d.pname = e.pname) ∧ d.gens = e.gens)

def idAt (E : Env) (p : Ptr) : Option Nat := (E.defs[p]?).map PDef.id

def optionsOk (B : Bool) (E F : Env) : PKind → Bool
  | .choice os => !B || os.all fun o => (idAt E o).isSome && idAt E o == idAt F o
  | _ => true

/-- A check for corresponding tables with the same addresses. -/
def tablesOk (P B : Bool) (n : Nat) (E F : Env) : Bool :=
  decide (E.keywords = [] ∧ F.keywords = []) && (List.range n).all fun i =>
    match E.defs[i + 1]?, F.defs[i + 1]? with
    | some d, some e => kindOk P n d.kind e.kind && (d.kind.isChar || defOk P B d e) && optionsOk B E F d.kind
    | _, _ => false

theorem Pairs.same {α : Type} {R : α → α → Prop} {as : List α} (h : ∀ a ∈ as, R a a) : Pairs R as as := by
  induction as with
  | nil => exact .nil
  | cons a as ih => exact .cons (h a (by simp)) (ih fun b hb => h b (by simp [hb]))

theorem kindOk_sound {P : Bool} {n : Nat} {k k' : PKind} (h : kindOk P n k k' = true) : KindRel (P = true) (Within n) k k' := by
  unfold kindOk at h
  split at h
  · refine .char fun hP => ?_
    subst hP
    simpa using h
  · simp only [Bool.and_eq_true, decide_eq_true_eq, List.all_eq_true] at h
    obtain ⟨rfl, h⟩ := h
    exact .choice (Pairs.same fun o ho => ⟨rfl, h o ho⟩)
  · simp only [Bool.and_eq_true, decide_eq_true_eq, List.all_eq_true] at h
    obtain ⟨⟨rfl, rfl, rfl⟩, h⟩ := h
    exact .seq _ _ (Pairs.same fun o ho => ⟨rfl, h o ho⟩)
  · cases h

theorem defOk_sound {P B : Bool} {n : Nat} {d e : PDef} (h : defOk P B d e = true) :
    DefRel (P = true) (B = true) (Within n) Eq d e := by
  unfold defOk at h
  obtain ⟨h1, h2, h3, h4, h5⟩ := of_decide_eq_true h
  refine ⟨h1, h2, h3, h4, ?_⟩
  rw [h5]
  exact Pairs.same fun _ _ => rfl

theorem tablesOk_sound {P B : Bool} {n : Nat} {E F : Env} (h : tablesOk P B n E F = true) :
    EnvRel (P = true) (B = true) (Within n) Eq E F := by
  unfold tablesOk at h
  rw [Bool.and_eq_true, decide_eq_true_eq] at h
  obtain ⟨⟨hk, hk'⟩, h⟩ := h
  have hd : ∀ p q, Within n p q → ∃ d e, E.defs[p]? = some d ∧ F.defs[q]? = some e ∧ kindOk P n d.kind e.kind = true ∧
      (d.kind.isChar || defOk P B d e) = true ∧ optionsOk B E F d.kind = true := by
    rintro p _ ⟨rfl, h1, h2⟩
    replace h1 : (1 : Nat) ≤ p := h1
    have := List.all_eq_true.1 h (p - 1) (by simp only [List.mem_range]; omega)
    rw [show p - 1 + 1 = p from by omega] at this
    split at this
    · rename_i d e hd he
      simp only [Bool.and_eq_true] at this
      exact ⟨d, e, hd, he, this.1.1, this.1.2, this.2⟩
    · cases this
  refine ⟨?_, ?_, ?_, ?_⟩
  · intro a b a' b' h h'
    subst h
    subst h'
    exact Iff.rfl
  · intro p q hpq
    obtain ⟨d, e, h1, h2, h3, h4, -⟩ := hd p q hpq
    refine ⟨d, e, h1, h2, kindOk_sound h3, fun hc => ?_⟩
    rw [hc] at h4
    exact defOk_sound h4
  · intro hB p q d e os os' hpq hp hq hos hos'
    obtain ⟨d', e', h1, h2, h3, -, h5⟩ := hd p q hpq
    obtain rfl := Option.some.inj (hp.symm.trans h1)
    obtain rfl := Option.some.inj (hq.symm.trans h2)
    rw [hos, hos'] at h3
    rw [hos] at h5
    simp only [kindOk, Bool.and_eq_true, decide_eq_true_eq] at h3
    obtain ⟨rfl, -⟩ := h3
    subst hB
    simp only [optionsOk, Bool.not_true, Bool.false_or, List.all_eq_true] at h5
    refine Pairs.same fun o ho => ?_
    have := h5 o ho
    unfold idAt at this
    cases ho1 : E.defs[o]? with
    | none => rw [ho1] at this; cases this
    | some x =>
      cases ho2 : F.defs[o]? with
      | none => rw [ho1, ho2] at this; simp at this
      | some y =>
        rw [ho1, ho2] at this
        exact ⟨x, y, ho1, ho2, by simpa using this⟩
  · intro _
    rw [hk, hk']
    exact .nil

/-! ### The generated program -/

/-- The parsers and the builders of the program are those of self.go. -/
def programOk (prog : Program) : Bool :=
  tablesOk true false 196 selfEnv prog.parserEnv && tablesOk false true 196 selfEnv prog.builderEnv &&
    decide (prog.rootParser = 196 ∧ prog.rootBuilder = 196 ∧ (prog.parserEnv.defs[196]?).map PDef.pname = some [])

def syntaxCheck : Bool :=
  match Syntax.internalCalls {} syntaxCalls with
  | (s, none) =>
    match s.Generate with
    | .ok (_, .ok prog) => programOk prog
    | _ => false
  | _ => false

theorem syntax_checked : syntaxCheck = true := by decide +kernel

theorem syntax_generated : ∃ s s' prog, Syntax.internalCalls {} syntaxCalls = (s, none) ∧ s.Generate = .ok (s', .ok prog) ∧
    programOk prog = true := by
  have h := syntax_checked
  unfold syntaxCheck at h
  split at h
  · rename_i s hs
    split at h
    · rename_i s' prog hg
      exact ⟨s, s', prog, hs, hg, h⟩
    · cases h
  · cases h

theorem programOk_run {prog : Program} (h : programOk prog = true) (fuel : Nat) (input : List Rune) (rend : Option Nat) :
    prog.run fuel input rend = selfParse fuel input rend := by
  unfold programOk at h
  simp only [Bool.and_eq_true, decide_eq_true_eq] at h
  obtain ⟨⟨hP, hB⟩, hr, hb, hn⟩ := h
  have hP := tablesOk_sound hP
  have hB := tablesOk_sound hB
  obtain ⟨e, he, hen⟩ := Option.map_eq_some_iff.1 hn
  obtain ⟨d, hd⟩ : ∃ d, selfEnv.defs[selfRoot]? = some d := ⟨_, rfl⟩
  have hdn : d.pname = [] := by
    have : (selfEnv.defs[selfRoot]?).map PDef.pname = some [] := by decide +kernel
    rw [hd] at this
    simpa using this
  have hid : d.id = e.id := by
    obtain ⟨d', e', h1, h2, -, h4⟩ := hP.defs 196 196 ⟨rfl, by decide, by decide⟩
    obtain rfl := Option.some.inj (hd.symm.trans h1)
    obtain rfl := Option.some.inj (he.symm.trans h2)
    refine (h4 ?_).id
    have : (selfEnv.defs[selfRoot]?).map (fun d => d.kind.isChar) = some false := by decide +kernel
    rw [hd] at this
    simpa using this
  have hP' : EnvRel True (false = true) (Within 196) Eq selfEnv prog.parserEnv := by simpa using hP
  have hB' : EnvRel (false = true) True (Within 196) Eq selfEnv prog.builderEnv := by simpa using hB
  have := parseWith_rel hP' hB' (p := selfRoot) (q := 196) (b := 196) ⟨rfl, by decide, by decide⟩ ⟨rfl, by decide, by decide⟩
    hd he hid fuel input rend
  unfold Program.run selfParse
  rw [hr, hb]
  rw [hdn, hen] at this
  generalize parseInput selfEnv fuel selfRoot input rend = x at this
  generalize parseWith prog.parserEnv prog.builderEnv fuel 196 196 input rend = y at this
  cases this with
  | ok h =>
    cases h with
    | node t => rfl
    | error h => rw [h.eq]
  | panic => rfl
  | oof => rfl

end Treerack
