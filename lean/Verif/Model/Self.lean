import Verif.Model.Builder

/-
self/self.go:811-1433: the tables of the generated parser of the syntax of syntax documents, extracted
from the Go source by a script.  The address of a parser is its number in the variable name (`p196` has
the address 196), numbers without a parser are `none`.
-/

namespace Treerack

/-- self/self.go:813-1429 -/
def selfTable : List (Option PDef) := [
  none,
  some ⟨runes "", runes "", 1, { alias := true }, [], .char false [32] []⟩,
  some ⟨runes "", runes "", 2, { alias := true, noWhitespace := true }, [15, 193, 194], .seq [1] [(1, 1), (1, 1)] true⟩,
  some ⟨runes "", runes "", 3, { alias := true }, [], .char false [9] []⟩,
  some ⟨runes "", runes "", 4, { alias := true, noWhitespace := true }, [15, 193, 194], .seq [3] [(1, 1), (1, 1)] true⟩,
  some ⟨runes "", runes "", 5, { alias := true }, [], .char false [10] []⟩,
  some ⟨runes "", runes "", 6, { alias := true, noWhitespace := true }, [15, 193, 194], .seq [5] [(1, 1), (1, 1)] true⟩,
  some ⟨runes "", runes "", 7, { alias := true }, [], .char false [8] []⟩,
  some ⟨runes "", runes "", 8, { alias := true, noWhitespace := true }, [15, 193, 194], .seq [7] [(1, 1), (1, 1)] true⟩,
  some ⟨runes "", runes "", 9, { alias := true }, [], .char false [12] []⟩,
  some ⟨runes "", runes "", 10, { alias := true, noWhitespace := true }, [15, 193, 194], .seq [9] [(1, 1), (1, 1)] true⟩,
  some ⟨runes "", runes "", 11, { alias := true }, [], .char false [13] []⟩,
  some ⟨runes "", runes "", 12, { alias := true, noWhitespace := true }, [15, 193, 194], .seq [11] [(1, 1), (1, 1)] true⟩,
  some ⟨runes "", runes "", 13, { alias := true }, [], .char false [11] []⟩,
  some ⟨runes "", runes "", 14, { alias := true, noWhitespace := true }, [15, 193, 194], .seq [13] [(1, 1), (1, 1)] true⟩,
  some ⟨runes "wschar", runes "", 15, { alias := true, userDefined := true }, [193, 194], .choice [2, 4, 6, 8, 10, 12, 14]⟩,
  some ⟨runes "", runes "", 16, { alias := true }, [], .char false [47] []⟩,
  some ⟨runes "", runes "", 17, { alias := true }, [], .char false [42] []⟩,
  some ⟨runes "", runes "", 18, { alias := true, noWhitespace := true }, [], .seq [16, 17] [(1, 1), (1, 1), (1, 1), (1, 1)] true⟩,
  some ⟨runes "", runes "", 19, { alias := true }, [], .char false [42] []⟩,
  some ⟨runes "", runes "", 20, { alias := true, noWhitespace := true }, [], .seq [19] [(1, 1), (1, 1)] true⟩,
  some ⟨runes "", runes "", 21, { alias := true }, [], .char true [47] []⟩,
  some ⟨runes "", runes "", 22, { alias := true, noWhitespace := true }, [], .seq [21] [(1, 1), (1, 1)] true⟩,
  some ⟨runes "", runes "", 23, { alias := true, noWhitespace := true }, [26], .seq [20, 22] [(1, 1), (1, 1), (1, 1), (1, 1)] false⟩,
  some ⟨runes "", runes "", 24, { alias := true }, [], .char true [42] []⟩,
  some ⟨runes "", runes "", 25, { alias := true, noWhitespace := true }, [26], .seq [24] [(1, 1), (1, 1)] true⟩,
  some ⟨runes "", runes "", 26, { alias := true, noWhitespace := true }, [], .choice [23, 25]⟩,
  some ⟨runes "", runes "", 27, { alias := true }, [], .char false [42] []⟩,
  some ⟨runes "", runes "", 28, { alias := true }, [], .char false [47] []⟩,
  some ⟨runes "", runes "", 29, { alias := true, noWhitespace := true }, [], .seq [27, 28] [(1, 1), (1, 1), (1, 1), (1, 1)] true⟩,
  some ⟨runes "block-comment", runes "", 30, { alias := true, noWhitespace := true, userDefined := true }, [37], .seq [18, 26, 29] [(1, 1), (0, -1), (1, 1), (1, 1), (0, -1), (1, 1)] false⟩,
  some ⟨runes "", runes "", 31, { alias := true }, [], .char false [47] []⟩,
  some ⟨runes "", runes "", 32, { alias := true }, [], .char false [47] []⟩,
  some ⟨runes "", runes "", 33, { alias := true, noWhitespace := true }, [], .seq [31, 32] [(1, 1), (1, 1), (1, 1), (1, 1)] true⟩,
  some ⟨runes "", runes "", 34, { alias := true }, [], .char true [10] []⟩,
  some ⟨runes "", runes "", 35, { alias := true, noWhitespace := true }, [], .seq [34] [(1, 1), (1, 1)] true⟩,
  some ⟨runes "line-comment", runes "", 36, { alias := true, noWhitespace := true, userDefined := true }, [37], .seq [33, 35] [(1, 1), (0, -1), (1, 1), (0, -1)] false⟩,
  some ⟨runes "comment-segment", runes "", 37, { alias := true, noWhitespace := true, userDefined := true }, [], .choice [36, 30]⟩,
  some ⟨runes "", runes "", 38, { alias := true }, [], .char false [32] []⟩,
  some ⟨runes "", runes "", 39, { alias := true, noWhitespace := true }, [50], .seq [38] [(1, 1), (1, 1)] true⟩,
  some ⟨runes "", runes "", 40, { alias := true }, [], .char false [9] []⟩,
  some ⟨runes "", runes "", 41, { alias := true, noWhitespace := true }, [50], .seq [40] [(1, 1), (1, 1)] true⟩,
  some ⟨runes "", runes "", 42, { alias := true }, [], .char false [8] []⟩,
  some ⟨runes "", runes "", 43, { alias := true, noWhitespace := true }, [50], .seq [42] [(1, 1), (1, 1)] true⟩,
  some ⟨runes "", runes "", 44, { alias := true }, [], .char false [12] []⟩,
  some ⟨runes "", runes "", 45, { alias := true, noWhitespace := true }, [50], .seq [44] [(1, 1), (1, 1)] true⟩,
  some ⟨runes "", runes "", 46, { alias := true }, [], .char false [13] []⟩,
  some ⟨runes "", runes "", 47, { alias := true, noWhitespace := true }, [50], .seq [46] [(1, 1), (1, 1)] true⟩,
  some ⟨runes "", runes "", 48, { alias := true }, [], .char false [11] []⟩,
  some ⟨runes "", runes "", 49, { alias := true, noWhitespace := true }, [50], .seq [48] [(1, 1), (1, 1)] true⟩,
  some ⟨runes "ws-no-nl", runes "", 50, { alias := true, noWhitespace := true, userDefined := true }, [], .choice [39, 41, 43, 45, 47, 49]⟩,
  some ⟨runes "", runes "", 51, { alias := true }, [], .char false [10] []⟩,
  some ⟨runes "", runes "", 52, { alias := true, noWhitespace := true }, [], .seq [51] [(1, 1), (1, 1)] true⟩,
  some ⟨runes "", runes "", 53, { alias := true, noWhitespace := true }, [], .seq [50, 52, 50, 37] [(0, -1), (0, 1), (0, -1), (1, 1), (0, -1), (0, 1), (0, -1), (1, 1)] false⟩,
  some ⟨runes "comment", runes "comment", 54, { noWhitespace := true, userDefined := true }, [193, 194], .seq [37, 53] [(1, 1), (0, -1), (1, 1), (0, -1)] false⟩,
  some ⟨runes "", runes "", 55, { alias := true }, [], .char false [46] []⟩,
  some ⟨runes "any-char", runes "any-char", 56, { noWhitespace := true, userDefined := true }, [89, 133, 123, 127], .seq [55] [(1, 1), (1, 1)] true⟩,
  some ⟨runes "", runes "", 57, { alias := true }, [], .char false [94] []⟩,
  some ⟨runes "class-not", runes "class-not", 58, { noWhitespace := true, userDefined := true }, [], .seq [57] [(1, 1), (1, 1)] true⟩,
  some ⟨runes "", runes "", 59, { alias := true }, [], .char true [92, 91, 93, 94, 45] []⟩,
  some ⟨runes "", runes "", 60, { alias := true, noWhitespace := true }, [66, 72], .seq [59] [(1, 1), (1, 1)] true⟩,
  some ⟨runes "", runes "", 61, { alias := true }, [], .char false [92] []⟩,
  some ⟨runes "", runes "", 62, { alias := true, noWhitespace := true }, [], .seq [61] [(1, 1), (1, 1)] true⟩,
  some ⟨runes "", runes "", 63, { alias := true }, [], .char true [] []⟩,
  some ⟨runes "", runes "", 64, { alias := true, noWhitespace := true }, [], .seq [63] [(1, 1), (1, 1)] true⟩,
  some ⟨runes "", runes "", 65, { alias := true, noWhitespace := true }, [66, 72], .seq [62, 64] [(1, 1), (1, 1), (1, 1), (1, 1)] false⟩,
  some ⟨runes "class-char", runes "class-char", 66, { noWhitespace := true, userDefined := true }, [72], .choice [60, 65]⟩,
  some ⟨runes "", runes "", 67, { alias := true }, [], .char false [45] []⟩,
  some ⟨runes "", runes "", 68, { alias := true, noWhitespace := true }, [], .seq [67] [(1, 1), (1, 1)] true⟩,
  some ⟨runes "char-range", runes "char-range", 69, { noWhitespace := true, userDefined := true }, [72], .seq [66, 68, 66] [(1, 1), (1, 1), (1, 1), (1, 1), (1, 1), (1, 1)] false⟩,
  some ⟨runes "", runes "", 70, { alias := true }, [], .char false [91] []⟩,
  some ⟨runes "", runes "", 71, { alias := true, noWhitespace := true }, [], .seq [70] [(1, 1), (1, 1)] true⟩,
  some ⟨runes "", runes "", 72, { alias := true, noWhitespace := true }, [], .choice [66, 69]⟩,
  some ⟨runes "", runes "", 73, { alias := true }, [], .char false [93] []⟩,
  some ⟨runes "", runes "", 74, { alias := true, noWhitespace := true }, [], .seq [73] [(1, 1), (1, 1)] true⟩,
  some ⟨runes "char-class", runes "char-class", 75, { noWhitespace := true, userDefined := true }, [89, 133, 123, 127], .seq [71, 58, 72, 74] [(1, 1), (0, 1), (0, -1), (1, 1), (1, 1), (0, 1), (0, -1), (1, 1)] false⟩,
  some ⟨runes "", runes "", 76, { alias := true }, [], .char true [92, 34] []⟩,
  some ⟨runes "", runes "", 77, { alias := true, noWhitespace := true }, [83], .seq [76] [(1, 1), (1, 1)] true⟩,
  some ⟨runes "", runes "", 78, { alias := true }, [], .char false [92] []⟩,
  some ⟨runes "", runes "", 79, { alias := true, noWhitespace := true }, [], .seq [78] [(1, 1), (1, 1)] true⟩,
  some ⟨runes "", runes "", 80, { alias := true }, [], .char true [] []⟩,
  some ⟨runes "", runes "", 81, { alias := true, noWhitespace := true }, [], .seq [80] [(1, 1), (1, 1)] true⟩,
  some ⟨runes "", runes "", 82, { alias := true, noWhitespace := true }, [83], .seq [79, 81] [(1, 1), (1, 1), (1, 1), (1, 1)] false⟩,
  some ⟨runes "sequence-char", runes "sequence-char", 83, { noWhitespace := true, userDefined := true }, [], .choice [77, 82]⟩,
  some ⟨runes "", runes "", 84, { alias := true }, [], .char false [34] []⟩,
  some ⟨runes "", runes "", 85, { alias := true, noWhitespace := true }, [], .seq [84] [(1, 1), (1, 1)] true⟩,
  some ⟨runes "", runes "", 86, { alias := true }, [], .char false [34] []⟩,
  some ⟨runes "", runes "", 87, { alias := true, noWhitespace := true }, [], .seq [86] [(1, 1), (1, 1)] true⟩,
  some ⟨runes "char-sequence", runes "char-sequence", 88, { noWhitespace := true, userDefined := true }, [89, 133, 123, 127], .seq [85, 83, 87] [(1, 1), (0, -1), (1, 1), (1, 1), (0, -1), (1, 1)] false⟩,
  some ⟨runes "terminal", runes "", 89, { alias := true, userDefined := true }, [133, 123, 127], .choice [56, 75, 88]⟩,
  some ⟨runes "", runes "", 90, { alias := true }, [], .char true [92, 32, 10, 9, 8, 12, 13, 11, 47, 46, 91, 93, 34, 123, 125, 94, 43, 42, 63, 124, 40, 41, 58, 61, 59] []⟩,
  some ⟨runes "", runes "", 91, { alias := true, noWhitespace := true }, [], .seq [90] [(1, 1), (1, 1)] true⟩,
  some ⟨runes "symbol", runes "symbol", 92, { noWhitespace := true, userDefined := true }, [133, 123, 127], .seq [91] [(1, -1), (1, -1)] false⟩,
  some ⟨runes "", runes "", 93, { alias := true }, [], .char false [40] []⟩,
  some ⟨runes "", runes "", 94, { alias := true, noWhitespace := true }, [], .seq [93] [(1, 1), (1, 1)] true⟩,
  some ⟨runes "", runes "", 95, { alias := true }, [], .char false [41] []⟩,
  some ⟨runes "", runes "", 96, { alias := true, noWhitespace := true }, [], .seq [95] [(1, 1), (1, 1)] true⟩,
  some ⟨runes "group", runes "", 97, { alias := true, userDefined := true }, [133, 123, 127], .seq [94, 194, 133, 194, 96] [(1, 1), (0, -1), (1, 1), (0, -1), (1, 1)] false⟩,
  some ⟨runes "", runes "", 98, { alias := true }, [], .char false [] [(48, 57)]⟩,
  some ⟨runes "", runes "", 99, { alias := true, noWhitespace := true }, [], .seq [98] [(1, 1), (1, 1)] true⟩,
  some ⟨runes "number", runes "", 100, { alias := true, noWhitespace := true, userDefined := true }, [], .seq [99] [(1, -1), (1, -1)] false⟩,
  some ⟨runes "count", runes "count", 101, { userDefined := true }, [], .seq [100] [(1, 1)] false⟩,
  some ⟨runes "", runes "", 102, { alias := true }, [], .char false [123] []⟩,
  some ⟨runes "", runes "", 103, { alias := true, noWhitespace := true }, [], .seq [102] [(1, 1), (1, 1)] true⟩,
  some ⟨runes "", runes "", 104, { alias := true }, [], .char false [125] []⟩,
  some ⟨runes "", runes "", 105, { alias := true, noWhitespace := true }, [], .seq [104] [(1, 1), (1, 1)] true⟩,
  some ⟨runes "count-quantifier", runes "count-quantifier", 106, { userDefined := true }, [122], .seq [103, 194, 101, 194, 105] [(1, 1), (0, -1), (1, 1), (0, -1), (1, 1)] false⟩,
  some ⟨runes "range-from", runes "range-from", 107, { userDefined := true }, [], .seq [100] [(1, 1)] false⟩,
  some ⟨runes "range-to", runes "range-to", 108, { userDefined := true }, [], .seq [100] [(1, 1)] false⟩,
  some ⟨runes "", runes "", 109, { alias := true }, [], .char false [123] []⟩,
  some ⟨runes "", runes "", 110, { alias := true, noWhitespace := true }, [], .seq [109] [(1, 1), (1, 1)] true⟩,
  some ⟨runes "", runes "", 111, { alias := true }, [], .char false [44] []⟩,
  some ⟨runes "", runes "", 112, { alias := true, noWhitespace := true }, [], .seq [111] [(1, 1), (1, 1)] true⟩,
  some ⟨runes "", runes "", 113, { alias := true }, [], .char false [125] []⟩,
  some ⟨runes "", runes "", 114, { alias := true, noWhitespace := true }, [], .seq [113] [(1, 1), (1, 1)] true⟩,
  some ⟨runes "range-quantifier", runes "range-quantifier", 115, { userDefined := true }, [122], .seq [110, 194, 107, 194, 112, 194, 108, 194, 114] [(1, 1), (0, -1), (0, 1), (0, -1), (1, 1), (0, -1), (0, 1), (0, -1), (1, 1)] false⟩,
  some ⟨runes "", runes "", 116, { alias := true }, [], .char false [43] []⟩,
  some ⟨runes "one-or-more", runes "one-or-more", 117, { noWhitespace := true, userDefined := true }, [122], .seq [116] [(1, 1), (1, 1)] true⟩,
  some ⟨runes "", runes "", 118, { alias := true }, [], .char false [42] []⟩,
  some ⟨runes "zero-or-more", runes "zero-or-more", 119, { noWhitespace := true, userDefined := true }, [122], .seq [118] [(1, 1), (1, 1)] true⟩,
  some ⟨runes "", runes "", 120, { alias := true }, [], .char false [63] []⟩,
  some ⟨runes "zero-or-one", runes "zero-or-one", 121, { noWhitespace := true, userDefined := true }, [122], .seq [120] [(1, 1), (1, 1)] true⟩,
  some ⟨runes "quantity", runes "", 122, { alias := true, userDefined := true }, [], .choice [106, 115, 117, 119, 121]⟩,
  some ⟨runes "", runes "", 123, { alias := true, noWhitespace := true }, [], .choice [89, 92, 97]⟩,
  some ⟨runes "item", runes "item", 124, { noWhitespace := true, userDefined := true }, [], .seq [123, 122] [(1, 1), (0, 1), (1, 1), (0, 1)] false⟩,
  some ⟨runes "", runes "", 125, { alias := true }, [], .seq [194, 124] [(0, -1), (1, 1)] false⟩,
  some ⟨runes "sequence", runes "sequence", 126, { userDefined := true }, [133, 127], .seq [124, 125] [(1, 1), (0, -1)] false⟩,
  some ⟨runes "option", runes "", 127, { alias := true, userDefined := true }, [], .choice [89, 92, 97, 126]⟩,
  some ⟨runes "", runes "", 128, { alias := true }, [], .char false [124] []⟩,
  some ⟨runes "", runes "", 129, { alias := true, noWhitespace := true }, [], .seq [128] [(1, 1), (1, 1)] true⟩,
  some ⟨runes "", runes "", 130, { alias := true }, [], .seq [129, 194, 127] [(1, 1), (0, -1), (1, 1)] false⟩,
  some ⟨runes "", runes "", 131, { alias := true }, [], .seq [194, 130] [(0, -1), (1, 1)] false⟩,
  some ⟨runes "choice", runes "choice", 132, { userDefined := true }, [133], .seq [127, 194, 130, 131] [(1, 1), (0, -1), (1, 1), (0, -1)] false⟩,
  some ⟨runes "expression", runes "", 133, { alias := true, userDefined := true }, [], .choice [89, 92, 97, 126, 132]⟩,
  some ⟨runes "", runes "", 134, { alias := true }, [], .char false [97] []⟩,
  some ⟨runes "", runes "", 135, { alias := true }, [], .char false [108] []⟩,
  some ⟨runes "", runes "", 136, { alias := true }, [], .char false [105] []⟩,
  some ⟨runes "", runes "", 137, { alias := true }, [], .char false [97] []⟩,
  some ⟨runes "", runes "", 138, { alias := true }, [], .char false [115] []⟩,
  some ⟨runes "alias", runes "alias", 139, { noWhitespace := true, userDefined := true }, [170], .seq [134, 135, 136, 137, 138] [(1, 1), (1, 1), (1, 1), (1, 1), (1, 1), (1, 1), (1, 1), (1, 1), (1, 1), (1, 1)] true⟩,
  some ⟨runes "", runes "", 140, { alias := true }, [], .char false [119] []⟩,
  some ⟨runes "", runes "", 141, { alias := true }, [], .char false [115] []⟩,
  some ⟨runes "ws", runes "ws", 142, { noWhitespace := true, userDefined := true }, [170], .seq [140, 141] [(1, 1), (1, 1), (1, 1), (1, 1)] true⟩,
  some ⟨runes "", runes "", 143, { alias := true }, [], .char false [110] []⟩,
  some ⟨runes "", runes "", 144, { alias := true }, [], .char false [111] []⟩,
  some ⟨runes "", runes "", 145, { alias := true }, [], .char false [119] []⟩,
  some ⟨runes "", runes "", 146, { alias := true }, [], .char false [115] []⟩,
  some ⟨runes "nows", runes "nows", 147, { noWhitespace := true, userDefined := true }, [170], .seq [143, 144, 145, 146] [(1, 1), (1, 1), (1, 1), (1, 1), (1, 1), (1, 1), (1, 1), (1, 1)] true⟩,
  some ⟨runes "", runes "", 148, { alias := true }, [], .char false [107] []⟩,
  some ⟨runes "", runes "", 149, { alias := true }, [], .char false [119] []⟩,
  some ⟨runes "kw", runes "kw", 150, { noWhitespace := true, userDefined := true }, [170], .seq [148, 149] [(1, 1), (1, 1), (1, 1), (1, 1)] true⟩,
  some ⟨runes "", runes "", 151, { alias := true }, [], .char false [110] []⟩,
  some ⟨runes "", runes "", 152, { alias := true }, [], .char false [111] []⟩,
  some ⟨runes "", runes "", 153, { alias := true }, [], .char false [107] []⟩,
  some ⟨runes "", runes "", 154, { alias := true }, [], .char false [119] []⟩,
  some ⟨runes "nokw", runes "nokw", 155, { noWhitespace := true, userDefined := true }, [170], .seq [151, 152, 153, 154] [(1, 1), (1, 1), (1, 1), (1, 1), (1, 1), (1, 1), (1, 1), (1, 1)] true⟩,
  some ⟨runes "", runes "", 156, { alias := true }, [], .char false [102] []⟩,
  some ⟨runes "", runes "", 157, { alias := true }, [], .char false [97] []⟩,
  some ⟨runes "", runes "", 158, { alias := true }, [], .char false [105] []⟩,
  some ⟨runes "", runes "", 159, { alias := true }, [], .char false [108] []⟩,
  some ⟨runes "", runes "", 160, { alias := true }, [], .char false [112] []⟩,
  some ⟨runes "", runes "", 161, { alias := true }, [], .char false [97] []⟩,
  some ⟨runes "", runes "", 162, { alias := true }, [], .char false [115] []⟩,
  some ⟨runes "", runes "", 163, { alias := true }, [], .char false [115] []⟩,
  some ⟨runes "failpass", runes "failpass", 164, { noWhitespace := true, userDefined := true }, [170], .seq [156, 157, 158, 159, 160, 161, 162, 163] [(1, 1), (1, 1), (1, 1), (1, 1), (1, 1), (1, 1), (1, 1), (1, 1), (1, 1), (1, 1), (1, 1), (1, 1), (1, 1), (1, 1), (1, 1), (1, 1)] true⟩,
  some ⟨runes "", runes "", 165, { alias := true }, [], .char false [114] []⟩,
  some ⟨runes "", runes "", 166, { alias := true }, [], .char false [111] []⟩,
  some ⟨runes "", runes "", 167, { alias := true }, [], .char false [111] []⟩,
  some ⟨runes "", runes "", 168, { alias := true }, [], .char false [116] []⟩,
  some ⟨runes "root", runes "root", 169, { noWhitespace := true, userDefined := true }, [170], .seq [165, 166, 167, 168] [(1, 1), (1, 1), (1, 1), (1, 1), (1, 1), (1, 1), (1, 1), (1, 1)] true⟩,
  some ⟨runes "flag", runes "", 170, { alias := true, userDefined := true }, [], .choice [139, 142, 147, 150, 155, 164, 169]⟩,
  some ⟨runes "", runes "", 171, { alias := true }, [], .char false [58] []⟩,
  some ⟨runes "", runes "", 172, { alias := true, noWhitespace := true }, [], .seq [171] [(1, 1), (1, 1)] true⟩,
  some ⟨runes "", runes "", 173, { alias := true, noWhitespace := true }, [], .seq [172, 170] [(1, 1), (1, 1), (1, 1), (1, 1)] false⟩,
  some ⟨runes "definition-name", runes "", 174, { alias := true, noWhitespace := true, userDefined := true }, [], .seq [92, 173] [(1, 1), (0, -1), (1, 1), (0, -1)] false⟩,
  some ⟨runes "", runes "", 175, { alias := true }, [], .char false [61] []⟩,
  some ⟨runes "", runes "", 176, { alias := true, noWhitespace := true }, [], .seq [175] [(1, 1), (1, 1)] true⟩,
  some ⟨runes "definition", runes "definition", 177, { userDefined := true }, [], .seq [174, 194, 176, 194, 133] [(1, 1), (0, -1), (1, 1), (0, -1), (1, 1)] false⟩,
  some ⟨runes "", runes "", 178, { alias := true }, [], .char false [59] []⟩,
  some ⟨runes "", runes "", 179, { alias := true, noWhitespace := true }, [], .seq [178] [(1, 1), (1, 1)] true⟩,
  some ⟨runes "", runes "", 180, { alias := true }, [], .seq [194, 179] [(0, -1), (1, 1)] false⟩,
  some ⟨runes "", runes "", 181, { alias := true }, [], .seq [179, 180, 194, 177] [(1, 1), (0, -1), (0, -1), (1, 1)] false⟩,
  some ⟨runes "", runes "", 182, { alias := true }, [], .seq [194, 181] [(0, -1), (1, 1)] false⟩,
  some ⟨runes "", runes "", 183, { alias := true }, [], .seq [194, 181, 182] [(0, -1), (1, 1), (0, -1)] false⟩,
  some ⟨runes "definitions", runes "", 184, { alias := true, userDefined := true }, [], .seq [177, 183] [(1, 1), (0, 1)] false⟩,
  some ⟨runes "", runes "", 185, { alias := true }, [], .char false [59] []⟩,
  some ⟨runes "", runes "", 186, { alias := true, noWhitespace := true }, [], .seq [185] [(1, 1), (1, 1)] true⟩,
  some ⟨runes "", runes "", 187, { alias := true }, [], .char false [59] []⟩,
  some ⟨runes "", runes "", 188, { alias := true, noWhitespace := true }, [], .seq [187] [(1, 1), (1, 1)] true⟩,
  some ⟨runes "", runes "", 189, { alias := true }, [], .seq [194, 186] [(0, -1), (1, 1)] false⟩,
  some ⟨runes "", runes "", 190, { alias := true }, [], .seq [186, 189] [(1, 1), (0, -1)] false⟩,
  some ⟨runes "", runes "", 191, { alias := true }, [], .seq [194, 188] [(0, -1), (1, 1)] false⟩,
  some ⟨runes "", runes "", 192, { alias := true }, [], .seq [194, 188, 191] [(0, -1), (1, 1), (0, -1)] false⟩,
  some ⟨runes "wsc", runes "", 193, { alias := true, whitespace := true, userDefined := true }, [194], .choice [15, 54]⟩,
  some ⟨runes "", runes "", 194, { alias := true }, [], .choice [193]⟩,
  some ⟨runes "syntax:wsroot", runes "", 195, { alias := true, userDefined := true }, [], .seq [190, 194, 184, 192] [(0, 1), (0, -1), (0, 1), (0, 1)] false⟩,
  some ⟨runes "", runes "syntax", 196, { root := true }, [], .seq [194, 195, 194] [(0, -1), (1, 1), (0, -1)] false⟩]

/-- Filler for the addresses without a parser; not reachable from the root. -/
def selfFiller : PDef := ⟨[], [], 0, {}, [], .choice []⟩

/-- The parsers of self/self.go; there are no keywords (self/self.go:1429). -/
def selfEnv : Env := { defs := selfTable.map fun d => d.getD selfFiller, keywords := [] }

/-- self/self.go:1431 -/
def selfRoot : Ptr := 196

/-- self/self.go:811-1433 `self.Parse`. -/
def selfParse (fuel : Nat) (reader : List Rune) (readerEnd : Option Nat) : Res (Except Err Node) :=
  parseInput selfEnv fuel selfRoot reader readerEnd

end Treerack
