import Verif.Proofs.SelfFirst

/-
The definitions of the parsers of syntax documents, as a grammar.
-/

namespace Treerack
open Spec

namespace SelfG

theorem g1 : selfEnv.grammar 1 = some ⟨runes "", true, .char false [32] []⟩ := rfl
theorem g2 : selfEnv.grammar 2 = some ⟨runes "", true, .seq [(1, 1, 1)]⟩ := rfl
theorem g3 : selfEnv.grammar 3 = some ⟨runes "", true, .char false [9] []⟩ := rfl
theorem g4 : selfEnv.grammar 4 = some ⟨runes "", true, .seq [(3, 1, 1)]⟩ := rfl
theorem g5 : selfEnv.grammar 5 = some ⟨runes "", true, .char false [10] []⟩ := rfl
theorem g6 : selfEnv.grammar 6 = some ⟨runes "", true, .seq [(5, 1, 1)]⟩ := rfl
theorem g7 : selfEnv.grammar 7 = some ⟨runes "", true, .char false [8] []⟩ := rfl
theorem g8 : selfEnv.grammar 8 = some ⟨runes "", true, .seq [(7, 1, 1)]⟩ := rfl
theorem g9 : selfEnv.grammar 9 = some ⟨runes "", true, .char false [12] []⟩ := rfl
theorem g10 : selfEnv.grammar 10 = some ⟨runes "", true, .seq [(9, 1, 1)]⟩ := rfl
theorem g11 : selfEnv.grammar 11 = some ⟨runes "", true, .char false [13] []⟩ := rfl
theorem g12 : selfEnv.grammar 12 = some ⟨runes "", true, .seq [(11, 1, 1)]⟩ := rfl
theorem g13 : selfEnv.grammar 13 = some ⟨runes "", true, .char false [11] []⟩ := rfl
theorem g14 : selfEnv.grammar 14 = some ⟨runes "", true, .seq [(13, 1, 1)]⟩ := rfl
theorem g15 : selfEnv.grammar 15 = some ⟨runes "", true, .choice [2, 4, 6, 8, 10, 12, 14]⟩ := rfl
theorem g16 : selfEnv.grammar 16 = some ⟨runes "", true, .char false [47] []⟩ := rfl
theorem g17 : selfEnv.grammar 17 = some ⟨runes "", true, .char false [42] []⟩ := rfl
theorem g18 : selfEnv.grammar 18 = some ⟨runes "", true, .seq [(16, 1, 1), (17, 1, 1)]⟩ := rfl
theorem g19 : selfEnv.grammar 19 = some ⟨runes "", true, .char false [42] []⟩ := rfl
theorem g20 : selfEnv.grammar 20 = some ⟨runes "", true, .seq [(19, 1, 1)]⟩ := rfl
theorem g21 : selfEnv.grammar 21 = some ⟨runes "", true, .char true [47] []⟩ := rfl
theorem g22 : selfEnv.grammar 22 = some ⟨runes "", true, .seq [(21, 1, 1)]⟩ := rfl
theorem g23 : selfEnv.grammar 23 = some ⟨runes "", true, .seq [(20, 1, 1), (22, 1, 1)]⟩ := rfl
theorem g24 : selfEnv.grammar 24 = some ⟨runes "", true, .char true [42] []⟩ := rfl
theorem g25 : selfEnv.grammar 25 = some ⟨runes "", true, .seq [(24, 1, 1)]⟩ := rfl
theorem g26 : selfEnv.grammar 26 = some ⟨runes "", true, .choice [23, 25]⟩ := rfl
theorem g27 : selfEnv.grammar 27 = some ⟨runes "", true, .char false [42] []⟩ := rfl
theorem g28 : selfEnv.grammar 28 = some ⟨runes "", true, .char false [47] []⟩ := rfl
theorem g29 : selfEnv.grammar 29 = some ⟨runes "", true, .seq [(27, 1, 1), (28, 1, 1)]⟩ := rfl
theorem g30 : selfEnv.grammar 30 = some ⟨runes "", true, .seq [(18, 1, 1), (26, 0, -1), (29, 1, 1)]⟩ := rfl
theorem g31 : selfEnv.grammar 31 = some ⟨runes "", true, .char false [47] []⟩ := rfl
theorem g32 : selfEnv.grammar 32 = some ⟨runes "", true, .char false [47] []⟩ := rfl
theorem g33 : selfEnv.grammar 33 = some ⟨runes "", true, .seq [(31, 1, 1), (32, 1, 1)]⟩ := rfl
theorem g34 : selfEnv.grammar 34 = some ⟨runes "", true, .char true [10] []⟩ := rfl
theorem g35 : selfEnv.grammar 35 = some ⟨runes "", true, .seq [(34, 1, 1)]⟩ := rfl
theorem g36 : selfEnv.grammar 36 = some ⟨runes "", true, .seq [(33, 1, 1), (35, 0, -1)]⟩ := rfl
theorem g37 : selfEnv.grammar 37 = some ⟨runes "", true, .choice [36, 30]⟩ := rfl
theorem g38 : selfEnv.grammar 38 = some ⟨runes "", true, .char false [32] []⟩ := rfl
theorem g39 : selfEnv.grammar 39 = some ⟨runes "", true, .seq [(38, 1, 1)]⟩ := rfl
theorem g40 : selfEnv.grammar 40 = some ⟨runes "", true, .char false [9] []⟩ := rfl
theorem g41 : selfEnv.grammar 41 = some ⟨runes "", true, .seq [(40, 1, 1)]⟩ := rfl
theorem g42 : selfEnv.grammar 42 = some ⟨runes "", true, .char false [8] []⟩ := rfl
theorem g43 : selfEnv.grammar 43 = some ⟨runes "", true, .seq [(42, 1, 1)]⟩ := rfl
theorem g44 : selfEnv.grammar 44 = some ⟨runes "", true, .char false [12] []⟩ := rfl
theorem g45 : selfEnv.grammar 45 = some ⟨runes "", true, .seq [(44, 1, 1)]⟩ := rfl
theorem g46 : selfEnv.grammar 46 = some ⟨runes "", true, .char false [13] []⟩ := rfl
theorem g47 : selfEnv.grammar 47 = some ⟨runes "", true, .seq [(46, 1, 1)]⟩ := rfl
theorem g48 : selfEnv.grammar 48 = some ⟨runes "", true, .char false [11] []⟩ := rfl
theorem g49 : selfEnv.grammar 49 = some ⟨runes "", true, .seq [(48, 1, 1)]⟩ := rfl
theorem g50 : selfEnv.grammar 50 = some ⟨runes "", true, .choice [39, 41, 43, 45, 47, 49]⟩ := rfl
theorem g51 : selfEnv.grammar 51 = some ⟨runes "", true, .char false [10] []⟩ := rfl
theorem g52 : selfEnv.grammar 52 = some ⟨runes "", true, .seq [(51, 1, 1)]⟩ := rfl
theorem g53 : selfEnv.grammar 53 = some ⟨runes "", true, .seq [(50, 0, -1), (52, 0, 1), (50, 0, -1), (37, 1, 1)]⟩ := rfl
theorem g54 : selfEnv.grammar 54 = some ⟨runes "comment", false, .seq [(37, 1, 1), (53, 0, -1)]⟩ := rfl
theorem g55 : selfEnv.grammar 55 = some ⟨runes "", true, .char false [46] []⟩ := rfl
theorem g56 : selfEnv.grammar 56 = some ⟨runes "any-char", false, .seq [(55, 1, 1)]⟩ := rfl
theorem g57 : selfEnv.grammar 57 = some ⟨runes "", true, .char false [94] []⟩ := rfl
theorem g58 : selfEnv.grammar 58 = some ⟨runes "class-not", false, .seq [(57, 1, 1)]⟩ := rfl
theorem g59 : selfEnv.grammar 59 = some ⟨runes "", true, .char true [92, 91, 93, 94, 45] []⟩ := rfl
theorem g60 : selfEnv.grammar 60 = some ⟨runes "", true, .seq [(59, 1, 1)]⟩ := rfl
theorem g61 : selfEnv.grammar 61 = some ⟨runes "", true, .char false [92] []⟩ := rfl
theorem g62 : selfEnv.grammar 62 = some ⟨runes "", true, .seq [(61, 1, 1)]⟩ := rfl
theorem g63 : selfEnv.grammar 63 = some ⟨runes "", true, .char true [] []⟩ := rfl
theorem g64 : selfEnv.grammar 64 = some ⟨runes "", true, .seq [(63, 1, 1)]⟩ := rfl
theorem g65 : selfEnv.grammar 65 = some ⟨runes "", true, .seq [(62, 1, 1), (64, 1, 1)]⟩ := rfl
theorem g66 : selfEnv.grammar 66 = some ⟨runes "class-char", false, .choice [60, 65]⟩ := rfl
theorem g67 : selfEnv.grammar 67 = some ⟨runes "", true, .char false [45] []⟩ := rfl
theorem g68 : selfEnv.grammar 68 = some ⟨runes "", true, .seq [(67, 1, 1)]⟩ := rfl
theorem g69 : selfEnv.grammar 69 = some ⟨runes "char-range", false, .seq [(66, 1, 1), (68, 1, 1), (66, 1, 1)]⟩ := rfl
theorem g70 : selfEnv.grammar 70 = some ⟨runes "", true, .char false [91] []⟩ := rfl
theorem g71 : selfEnv.grammar 71 = some ⟨runes "", true, .seq [(70, 1, 1)]⟩ := rfl
theorem g72 : selfEnv.grammar 72 = some ⟨runes "", true, .choice [66, 69]⟩ := rfl
theorem g73 : selfEnv.grammar 73 = some ⟨runes "", true, .char false [93] []⟩ := rfl
theorem g74 : selfEnv.grammar 74 = some ⟨runes "", true, .seq [(73, 1, 1)]⟩ := rfl
theorem g75 : selfEnv.grammar 75 = some ⟨runes "char-class", false, .seq [(71, 1, 1), (58, 0, 1), (72, 0, -1), (74, 1, 1)]⟩ := rfl
theorem g76 : selfEnv.grammar 76 = some ⟨runes "", true, .char true [92, 34] []⟩ := rfl
theorem g77 : selfEnv.grammar 77 = some ⟨runes "", true, .seq [(76, 1, 1)]⟩ := rfl
theorem g78 : selfEnv.grammar 78 = some ⟨runes "", true, .char false [92] []⟩ := rfl
theorem g79 : selfEnv.grammar 79 = some ⟨runes "", true, .seq [(78, 1, 1)]⟩ := rfl
theorem g80 : selfEnv.grammar 80 = some ⟨runes "", true, .char true [] []⟩ := rfl
theorem g81 : selfEnv.grammar 81 = some ⟨runes "", true, .seq [(80, 1, 1)]⟩ := rfl
theorem g82 : selfEnv.grammar 82 = some ⟨runes "", true, .seq [(79, 1, 1), (81, 1, 1)]⟩ := rfl
theorem g83 : selfEnv.grammar 83 = some ⟨runes "sequence-char", false, .choice [77, 82]⟩ := rfl
theorem g84 : selfEnv.grammar 84 = some ⟨runes "", true, .char false [34] []⟩ := rfl
theorem g85 : selfEnv.grammar 85 = some ⟨runes "", true, .seq [(84, 1, 1)]⟩ := rfl
theorem g86 : selfEnv.grammar 86 = some ⟨runes "", true, .char false [34] []⟩ := rfl
theorem g87 : selfEnv.grammar 87 = some ⟨runes "", true, .seq [(86, 1, 1)]⟩ := rfl
theorem g88 : selfEnv.grammar 88 = some ⟨runes "char-sequence", false, .seq [(85, 1, 1), (83, 0, -1), (87, 1, 1)]⟩ := rfl
theorem g89 : selfEnv.grammar 89 = some ⟨runes "", true, .choice [56, 75, 88]⟩ := rfl
theorem g90 : selfEnv.grammar 90 = some ⟨runes "", true, .char true [92, 32, 10, 9, 8, 12, 13, 11, 47, 46, 91, 93, 34, 123, 125, 94, 43, 42, 63, 124, 40, 41, 58, 61, 59] []⟩ := rfl
theorem g91 : selfEnv.grammar 91 = some ⟨runes "", true, .seq [(90, 1, 1)]⟩ := rfl
theorem g92 : selfEnv.grammar 92 = some ⟨runes "symbol", false, .seq [(91, 1, -1)]⟩ := rfl
theorem g93 : selfEnv.grammar 93 = some ⟨runes "", true, .char false [40] []⟩ := rfl
theorem g94 : selfEnv.grammar 94 = some ⟨runes "", true, .seq [(93, 1, 1)]⟩ := rfl
theorem g95 : selfEnv.grammar 95 = some ⟨runes "", true, .char false [41] []⟩ := rfl
theorem g96 : selfEnv.grammar 96 = some ⟨runes "", true, .seq [(95, 1, 1)]⟩ := rfl
theorem g97 : selfEnv.grammar 97 = some ⟨runes "", true, .seq [(94, 1, 1), (194, 0, -1), (133, 1, 1), (194, 0, -1), (96, 1, 1)]⟩ := rfl
theorem g98 : selfEnv.grammar 98 = some ⟨runes "", true, .char false [] [(48, 57)]⟩ := rfl
theorem g99 : selfEnv.grammar 99 = some ⟨runes "", true, .seq [(98, 1, 1)]⟩ := rfl
theorem g100 : selfEnv.grammar 100 = some ⟨runes "", true, .seq [(99, 1, -1)]⟩ := rfl
theorem g101 : selfEnv.grammar 101 = some ⟨runes "count", false, .seq [(100, 1, 1)]⟩ := rfl
theorem g102 : selfEnv.grammar 102 = some ⟨runes "", true, .char false [123] []⟩ := rfl
theorem g103 : selfEnv.grammar 103 = some ⟨runes "", true, .seq [(102, 1, 1)]⟩ := rfl
theorem g104 : selfEnv.grammar 104 = some ⟨runes "", true, .char false [125] []⟩ := rfl
theorem g105 : selfEnv.grammar 105 = some ⟨runes "", true, .seq [(104, 1, 1)]⟩ := rfl
theorem g106 : selfEnv.grammar 106 = some ⟨runes "count-quantifier", false, .seq [(103, 1, 1), (194, 0, -1), (101, 1, 1), (194, 0, -1), (105, 1, 1)]⟩ := rfl
theorem g107 : selfEnv.grammar 107 = some ⟨runes "range-from", false, .seq [(100, 1, 1)]⟩ := rfl
theorem g108 : selfEnv.grammar 108 = some ⟨runes "range-to", false, .seq [(100, 1, 1)]⟩ := rfl
theorem g109 : selfEnv.grammar 109 = some ⟨runes "", true, .char false [123] []⟩ := rfl
theorem g110 : selfEnv.grammar 110 = some ⟨runes "", true, .seq [(109, 1, 1)]⟩ := rfl
theorem g111 : selfEnv.grammar 111 = some ⟨runes "", true, .char false [44] []⟩ := rfl
theorem g112 : selfEnv.grammar 112 = some ⟨runes "", true, .seq [(111, 1, 1)]⟩ := rfl
theorem g113 : selfEnv.grammar 113 = some ⟨runes "", true, .char false [125] []⟩ := rfl
theorem g114 : selfEnv.grammar 114 = some ⟨runes "", true, .seq [(113, 1, 1)]⟩ := rfl
theorem g115 : selfEnv.grammar 115 = some ⟨runes "range-quantifier", false, .seq [(110, 1, 1), (194, 0, -1), (107, 0, 1), (194, 0, -1), (112, 1, 1), (194, 0, -1), (108, 0, 1), (194, 0, -1), (114, 1, 1)]⟩ := rfl
theorem g116 : selfEnv.grammar 116 = some ⟨runes "", true, .char false [43] []⟩ := rfl
theorem g117 : selfEnv.grammar 117 = some ⟨runes "one-or-more", false, .seq [(116, 1, 1)]⟩ := rfl
theorem g118 : selfEnv.grammar 118 = some ⟨runes "", true, .char false [42] []⟩ := rfl
theorem g119 : selfEnv.grammar 119 = some ⟨runes "zero-or-more", false, .seq [(118, 1, 1)]⟩ := rfl
theorem g120 : selfEnv.grammar 120 = some ⟨runes "", true, .char false [63] []⟩ := rfl
theorem g121 : selfEnv.grammar 121 = some ⟨runes "zero-or-one", false, .seq [(120, 1, 1)]⟩ := rfl
theorem g122 : selfEnv.grammar 122 = some ⟨runes "", true, .choice [106, 115, 117, 119, 121]⟩ := rfl
theorem g123 : selfEnv.grammar 123 = some ⟨runes "", true, .choice [89, 92, 97]⟩ := rfl
theorem g124 : selfEnv.grammar 124 = some ⟨runes "item", false, .seq [(123, 1, 1), (122, 0, 1)]⟩ := rfl
theorem g125 : selfEnv.grammar 125 = some ⟨runes "", true, .seq [(194, 0, -1), (124, 1, 1)]⟩ := rfl
theorem g126 : selfEnv.grammar 126 = some ⟨runes "sequence", false, .seq [(124, 1, 1), (125, 0, -1)]⟩ := rfl
theorem g127 : selfEnv.grammar 127 = some ⟨runes "", true, .choice [89, 92, 97, 126]⟩ := rfl
theorem g128 : selfEnv.grammar 128 = some ⟨runes "", true, .char false [124] []⟩ := rfl
theorem g129 : selfEnv.grammar 129 = some ⟨runes "", true, .seq [(128, 1, 1)]⟩ := rfl
theorem g130 : selfEnv.grammar 130 = some ⟨runes "", true, .seq [(129, 1, 1), (194, 0, -1), (127, 1, 1)]⟩ := rfl
theorem g131 : selfEnv.grammar 131 = some ⟨runes "", true, .seq [(194, 0, -1), (130, 1, 1)]⟩ := rfl
theorem g132 : selfEnv.grammar 132 = some ⟨runes "choice", false, .seq [(127, 1, 1), (194, 0, -1), (130, 1, 1), (131, 0, -1)]⟩ := rfl
theorem g133 : selfEnv.grammar 133 = some ⟨runes "", true, .choice [89, 92, 97, 126, 132]⟩ := rfl
theorem g134 : selfEnv.grammar 134 = some ⟨runes "", true, .char false [97] []⟩ := rfl
theorem g135 : selfEnv.grammar 135 = some ⟨runes "", true, .char false [108] []⟩ := rfl
theorem g136 : selfEnv.grammar 136 = some ⟨runes "", true, .char false [105] []⟩ := rfl
theorem g137 : selfEnv.grammar 137 = some ⟨runes "", true, .char false [97] []⟩ := rfl
theorem g138 : selfEnv.grammar 138 = some ⟨runes "", true, .char false [115] []⟩ := rfl
theorem g139 : selfEnv.grammar 139 = some ⟨runes "alias", false, .seq [(134, 1, 1), (135, 1, 1), (136, 1, 1), (137, 1, 1), (138, 1, 1)]⟩ := rfl
theorem g140 : selfEnv.grammar 140 = some ⟨runes "", true, .char false [119] []⟩ := rfl
theorem g141 : selfEnv.grammar 141 = some ⟨runes "", true, .char false [115] []⟩ := rfl
theorem g142 : selfEnv.grammar 142 = some ⟨runes "ws", false, .seq [(140, 1, 1), (141, 1, 1)]⟩ := rfl
theorem g143 : selfEnv.grammar 143 = some ⟨runes "", true, .char false [110] []⟩ := rfl
theorem g144 : selfEnv.grammar 144 = some ⟨runes "", true, .char false [111] []⟩ := rfl
theorem g145 : selfEnv.grammar 145 = some ⟨runes "", true, .char false [119] []⟩ := rfl
theorem g146 : selfEnv.grammar 146 = some ⟨runes "", true, .char false [115] []⟩ := rfl
theorem g147 : selfEnv.grammar 147 = some ⟨runes "nows", false, .seq [(143, 1, 1), (144, 1, 1), (145, 1, 1), (146, 1, 1)]⟩ := rfl
theorem g148 : selfEnv.grammar 148 = some ⟨runes "", true, .char false [107] []⟩ := rfl
theorem g149 : selfEnv.grammar 149 = some ⟨runes "", true, .char false [119] []⟩ := rfl
theorem g150 : selfEnv.grammar 150 = some ⟨runes "kw", false, .seq [(148, 1, 1), (149, 1, 1)]⟩ := rfl
theorem g151 : selfEnv.grammar 151 = some ⟨runes "", true, .char false [110] []⟩ := rfl
theorem g152 : selfEnv.grammar 152 = some ⟨runes "", true, .char false [111] []⟩ := rfl
theorem g153 : selfEnv.grammar 153 = some ⟨runes "", true, .char false [107] []⟩ := rfl
theorem g154 : selfEnv.grammar 154 = some ⟨runes "", true, .char false [119] []⟩ := rfl
theorem g155 : selfEnv.grammar 155 = some ⟨runes "nokw", false, .seq [(151, 1, 1), (152, 1, 1), (153, 1, 1), (154, 1, 1)]⟩ := rfl
theorem g156 : selfEnv.grammar 156 = some ⟨runes "", true, .char false [102] []⟩ := rfl
theorem g157 : selfEnv.grammar 157 = some ⟨runes "", true, .char false [97] []⟩ := rfl
theorem g158 : selfEnv.grammar 158 = some ⟨runes "", true, .char false [105] []⟩ := rfl
theorem g159 : selfEnv.grammar 159 = some ⟨runes "", true, .char false [108] []⟩ := rfl
theorem g160 : selfEnv.grammar 160 = some ⟨runes "", true, .char false [112] []⟩ := rfl
theorem g161 : selfEnv.grammar 161 = some ⟨runes "", true, .char false [97] []⟩ := rfl
theorem g162 : selfEnv.grammar 162 = some ⟨runes "", true, .char false [115] []⟩ := rfl
theorem g163 : selfEnv.grammar 163 = some ⟨runes "", true, .char false [115] []⟩ := rfl
theorem g164 : selfEnv.grammar 164 = some ⟨runes "failpass", false, .seq [(156, 1, 1), (157, 1, 1), (158, 1, 1), (159, 1, 1), (160, 1, 1), (161, 1, 1), (162, 1, 1), (163, 1, 1)]⟩ := rfl
theorem g165 : selfEnv.grammar 165 = some ⟨runes "", true, .char false [114] []⟩ := rfl
theorem g166 : selfEnv.grammar 166 = some ⟨runes "", true, .char false [111] []⟩ := rfl
theorem g167 : selfEnv.grammar 167 = some ⟨runes "", true, .char false [111] []⟩ := rfl
theorem g168 : selfEnv.grammar 168 = some ⟨runes "", true, .char false [116] []⟩ := rfl
theorem g169 : selfEnv.grammar 169 = some ⟨runes "root", false, .seq [(165, 1, 1), (166, 1, 1), (167, 1, 1), (168, 1, 1)]⟩ := rfl
theorem g170 : selfEnv.grammar 170 = some ⟨runes "", true, .choice [139, 142, 147, 150, 155, 164, 169]⟩ := rfl
theorem g171 : selfEnv.grammar 171 = some ⟨runes "", true, .char false [58] []⟩ := rfl
theorem g172 : selfEnv.grammar 172 = some ⟨runes "", true, .seq [(171, 1, 1)]⟩ := rfl
theorem g173 : selfEnv.grammar 173 = some ⟨runes "", true, .seq [(172, 1, 1), (170, 1, 1)]⟩ := rfl
theorem g174 : selfEnv.grammar 174 = some ⟨runes "", true, .seq [(92, 1, 1), (173, 0, -1)]⟩ := rfl
theorem g175 : selfEnv.grammar 175 = some ⟨runes "", true, .char false [61] []⟩ := rfl
theorem g176 : selfEnv.grammar 176 = some ⟨runes "", true, .seq [(175, 1, 1)]⟩ := rfl
theorem g177 : selfEnv.grammar 177 = some ⟨runes "definition", false, .seq [(174, 1, 1), (194, 0, -1), (176, 1, 1), (194, 0, -1), (133, 1, 1)]⟩ := rfl
theorem g178 : selfEnv.grammar 178 = some ⟨runes "", true, .char false [59] []⟩ := rfl
theorem g179 : selfEnv.grammar 179 = some ⟨runes "", true, .seq [(178, 1, 1)]⟩ := rfl
theorem g180 : selfEnv.grammar 180 = some ⟨runes "", true, .seq [(194, 0, -1), (179, 1, 1)]⟩ := rfl
theorem g181 : selfEnv.grammar 181 = some ⟨runes "", true, .seq [(179, 1, 1), (180, 0, -1), (194, 0, -1), (177, 1, 1)]⟩ := rfl
theorem g182 : selfEnv.grammar 182 = some ⟨runes "", true, .seq [(194, 0, -1), (181, 1, 1)]⟩ := rfl
theorem g183 : selfEnv.grammar 183 = some ⟨runes "", true, .seq [(194, 0, -1), (181, 1, 1), (182, 0, -1)]⟩ := rfl
theorem g184 : selfEnv.grammar 184 = some ⟨runes "", true, .seq [(177, 1, 1), (183, 0, 1)]⟩ := rfl
theorem g185 : selfEnv.grammar 185 = some ⟨runes "", true, .char false [59] []⟩ := rfl
theorem g186 : selfEnv.grammar 186 = some ⟨runes "", true, .seq [(185, 1, 1)]⟩ := rfl
theorem g187 : selfEnv.grammar 187 = some ⟨runes "", true, .char false [59] []⟩ := rfl
theorem g188 : selfEnv.grammar 188 = some ⟨runes "", true, .seq [(187, 1, 1)]⟩ := rfl
theorem g189 : selfEnv.grammar 189 = some ⟨runes "", true, .seq [(194, 0, -1), (186, 1, 1)]⟩ := rfl
theorem g190 : selfEnv.grammar 190 = some ⟨runes "", true, .seq [(186, 1, 1), (189, 0, -1)]⟩ := rfl
theorem g191 : selfEnv.grammar 191 = some ⟨runes "", true, .seq [(194, 0, -1), (188, 1, 1)]⟩ := rfl
theorem g192 : selfEnv.grammar 192 = some ⟨runes "", true, .seq [(194, 0, -1), (188, 1, 1), (191, 0, -1)]⟩ := rfl
theorem g193 : selfEnv.grammar 193 = some ⟨runes "", true, .choice [15, 54]⟩ := rfl
theorem g194 : selfEnv.grammar 194 = some ⟨runes "", true, .choice [193]⟩ := rfl
theorem g195 : selfEnv.grammar 195 = some ⟨runes "", true, .seq [(190, 0, 1), (194, 0, -1), (184, 0, 1), (192, 0, 1)]⟩ := rfl
theorem g196 : selfEnv.grammar 196 = some ⟨runes "syntax", false, .seq [(194, 0, -1), (195, 1, 1), (194, 0, -1)]⟩ := rfl

end SelfG

end Treerack
