import Verif.Spec.Recursive
import Verif.Spec.Macro

/-!
# Five states of the simulator with `--recursive` on the machine `c57Steps` of `Props/RecursiveLimits.lean`

They cut the 2160 loops of `Props.C57_false_steps` into six parts, which the kernel checks one at a time.
-/

namespace Props
open Spec Model Model.Prover

/-- after 540 loops -/
def c57At540 : Recursive.Base Nat (Option Nat) :=
  ⟨⟨⟨⟨.L, [⟨1, some (.num 5)⟩, ⟨4, some (.num 5)⟩, ⟨0, none⟩], [⟨2, some (.num 2)⟩, ⟨0, none⟩]⟩, some 15, .L, .num 992, 540,
  [(0, .num 660), (5, .num 663), (6, .num 664), (7, .num 665), (8, .num 870), (9, .num 871), (10, .num 872), (11, .num 873),
  (12, .num 989), (13, .num 990), (14, .num 991), (15, .num 982), (16, .num 975), (4, .num 659), (1, .num 661), (2, .num 662),
  (3, .num 658)], .running, none, none, []⟩, .num 181, 10, 27⟩, [(⟨some 15, .L, [.many 1, .one 3, .many 4], [.many 2]⟩, ⟨none,
  some 4⟩), (⟨some 15, .L, [.one 1, .one 3, .many 4], [.many 2]⟩, ⟨some 531, none⟩), (⟨some 16, .R, [.one 2, .one 3, .many 4],
  [.many 2]⟩, ⟨some 532, none⟩), (⟨some 16, .R, [.many 2, .one 3, .many 4], []⟩, ⟨some 533, none⟩), (⟨some 15, .L, [.many 2,
  .one 3, .many 4], []⟩, ⟨some 534, none⟩), (⟨some 15, .L, [.one 3, .many 4], [.many 2]⟩, ⟨some 535, none⟩), (⟨some 12, .R,
  [.one 1, .many 4], [.many 2]⟩, ⟨some 536, none⟩), (⟨some 12, .R, [.many 1, .many 4], []⟩, ⟨some 537, none⟩), (⟨some 13, .L,
  [.many 1, .many 4], []⟩, ⟨some 538, none⟩), (⟨some 14, .L, [.many 1, .many 4], [.one 2]⟩, ⟨some 539, none⟩)], [(⟨some 15, .L,
  [.many 1, .many 4], [.many 2]⟩, .diff ⟨⟨.L, [⟨1, some (.expr ⟨[⟨[⟨0, 1⟩], 1⟩], 2⟩)⟩, ⟨4, some (.expr ⟨[⟨[⟨1, 1⟩], 1⟩], 1⟩)⟩,
  ⟨0, none⟩], [⟨2, some (.expr ⟨[⟨[⟨2, 1⟩], 1⟩], 1⟩)⟩, ⟨0, none⟩]⟩, ⟨.L, [⟨1, some (.num (-1))⟩, ⟨4, some (.num 0)⟩, ⟨0,
  none⟩], [⟨2, some (.num 1)⟩, ⟨0, none⟩]⟩, .expr ⟨[⟨[⟨2, 1⟩], 2⟩], 5⟩, [15, 16], false⟩), (⟨some 15, .L, [.many 1, .one 3,
  .one 4], [.many 2]⟩, .diff ⟨⟨.L, [⟨1, some (.expr ⟨[⟨[⟨4, 1⟩], 1⟩], 2⟩)⟩, ⟨3, some (.num 1)⟩, ⟨4, some (.num 1)⟩, ⟨0, none⟩],
  [⟨2, some (.expr ⟨[⟨[⟨5, 1⟩], 1⟩], 1⟩)⟩, ⟨0, none⟩]⟩, ⟨.L, [⟨1, some (.num (-1))⟩, ⟨3, some (.num 0)⟩, ⟨4, some (.num 0)⟩,
  ⟨0, none⟩], [⟨2, some (.num 1)⟩, ⟨0, none⟩]⟩, .expr ⟨[⟨[⟨5, 1⟩], 2⟩], 5⟩, [15, 16], false⟩), (⟨some 15, .L, [.many 1,
  .one 4], [.many 2]⟩, .diff ⟨⟨.L, [⟨1, some (.expr ⟨[⟨[⟨7, 1⟩], 1⟩], 2⟩)⟩, ⟨4, some (.num 1)⟩, ⟨0, none⟩], [⟨2,
  some (.expr ⟨[⟨[⟨8, 1⟩], 1⟩], 1⟩)⟩, ⟨0, none⟩]⟩, ⟨.L, [⟨1, some (.num (-1))⟩, ⟨4, some (.num 0)⟩, ⟨0, none⟩], [⟨2,
  some (.num 1)⟩, ⟨0, none⟩]⟩, .expr ⟨[⟨[⟨8, 1⟩], 2⟩], 5⟩, [15, 16], false⟩), (⟨some 15, .L, [.many 1, .many 3], [.many 2]⟩,
  .diff ⟨⟨.L, [⟨1, some (.expr ⟨[⟨[⟨10, 1⟩], 1⟩], 2⟩)⟩, ⟨3, some (.expr ⟨[⟨[⟨11, 1⟩], 1⟩], 1⟩)⟩, ⟨0, none⟩], [⟨2,
  some (.expr ⟨[⟨[⟨12, 1⟩], 1⟩], 1⟩)⟩, ⟨0, none⟩]⟩, ⟨.L, [⟨1, some (.num (-1))⟩, ⟨3, some (.num 0)⟩, ⟨0, none⟩], [⟨2,
  some (.num 1)⟩, ⟨0, none⟩]⟩, .expr ⟨[⟨[⟨12, 1⟩], 2⟩], 5⟩, [15, 16], false⟩), (⟨some 15, .L, [.many 1, .one 3], [.many 2]⟩,
  .diff ⟨⟨.L, [⟨1, some (.expr ⟨[⟨[⟨14, 1⟩], 1⟩], 2⟩)⟩, ⟨3, some (.num 1)⟩, ⟨0, none⟩], [⟨2, some (.expr ⟨[⟨[⟨15, 1⟩], 1⟩],
  1⟩)⟩, ⟨0, none⟩]⟩, ⟨.L, [⟨1, some (.num (-1))⟩, ⟨3, some (.num 0)⟩, ⟨0, none⟩], [⟨2, some (.num 1)⟩, ⟨0, none⟩]⟩,
  .expr ⟨[⟨[⟨15, 1⟩], 2⟩], 5⟩, [15, 16], false⟩), (⟨some 15, .L, [.many 1], [.many 2]⟩, .diff ⟨⟨.L, [⟨1, some (.expr ⟨[⟨[⟨17,
  1⟩], 1⟩], 2⟩)⟩, ⟨0, none⟩], [⟨2, some (.expr ⟨[⟨[⟨18, 1⟩], 1⟩], 1⟩)⟩, ⟨0, none⟩]⟩, ⟨.L, [⟨1, some (.num (-1))⟩, ⟨0, none⟩],
  [⟨2, some (.num 1)⟩, ⟨0, none⟩]⟩, .expr ⟨[⟨[⟨18, 1⟩], 2⟩], 5⟩, [15, 16], false⟩), (⟨some 15, .L, [.many 1, .one 3, .many 4],
  [.many 2]⟩, .diff ⟨⟨.L, [⟨1, some (.expr ⟨[⟨[⟨23, 1⟩], 1⟩], 2⟩)⟩, ⟨3, some (.num 1)⟩, ⟨4, some (.expr ⟨[⟨[⟨24, 1⟩], 1⟩],
  1⟩)⟩, ⟨0, none⟩], [⟨2, some (.expr ⟨[⟨[⟨25, 1⟩], 1⟩], 1⟩)⟩, ⟨0, none⟩]⟩, ⟨.L, [⟨1, some (.num (-1))⟩, ⟨3, some (.num 0)⟩, ⟨4,
  some (.num 0)⟩, ⟨0, none⟩], [⟨2, some (.num 1)⟩, ⟨0, none⟩]⟩, .expr ⟨[⟨[⟨25, 1⟩], 2⟩], 5⟩, [15, 16], false⟩)]⟩

/-- after 1080 loops -/
def c57At1080 : Recursive.Base Nat (Option Nat) :=
  ⟨⟨⟨⟨.R, [⟨1, some (.num 4)⟩, ⟨3, some (.num 3)⟩, ⟨4, some (.num 9)⟩, ⟨0, none⟩], [⟨0, none⟩]⟩, some 12, .R, .num 2168, 1080,
  [(0, .num 1969), (5, .num 1971), (6, .num 1972), (7, .num 1973), (8, .num 2148), (9, .num 2149), (10, .num 2150), (11,
  .num 2151), (12, .num 2167), (13, .num 2155), (14, .num 2156), (15, .num 2164), (16, .num 2160), (4, .num 1968), (1,
  .num 1970), (2, .num 1966), (3, .num 1967)], .running, none, none, []⟩, .num 2016, 48, 126⟩, [(⟨some 16, .R, [.one 2,
  .many 3], [.many 2]⟩, ⟨none, some 10⟩), (⟨some 16, .R, [.many 2, .many 3], []⟩, ⟨some 925, some 10⟩), (⟨some 15, .L,
  [.many 2, .many 3], []⟩, ⟨some 926, some 10⟩), (⟨some 15, .L, [.many 3], [.many 2]⟩, ⟨some 927, some 10⟩), (⟨some 12, .R,
  [.one 1, .many 3], [.many 2]⟩, ⟨some 918, none⟩), (⟨some 12, .R, [.many 1, .many 3], []⟩, ⟨some 919, none⟩), (⟨some 13, .L,
  [.many 1, .many 3], []⟩, ⟨some 920, none⟩), (⟨some 14, .L, [.many 1, .many 3], [.one 2]⟩, ⟨some 921, none⟩), (⟨some 12, .R,
  [.one 1, .one 3], [.many 2]⟩, ⟨some 928, none⟩), (⟨some 12, .R, [.many 1, .one 3], []⟩, ⟨some 929, none⟩), (⟨some 13, .L,
  [.many 1, .one 3], []⟩, ⟨some 930, none⟩), (⟨some 14, .L, [.many 1, .one 3], [.one 2]⟩, ⟨some 931, none⟩), (⟨some 15, .L,
  [.one 1, .one 3], [.many 2]⟩, ⟨some 933, none⟩), (⟨some 16, .R, [.one 2, .one 3], [.many 2]⟩, ⟨some 934, none⟩), (⟨some 16,
  .R, [.many 2, .one 3], []⟩, ⟨some 935, none⟩), (⟨some 15, .L, [.many 2, .one 3], []⟩, ⟨some 936, none⟩), (⟨some 15, .L,
  [.one 3], [.many 2]⟩, ⟨some 937, none⟩), (⟨some 12, .R, [.one 1], [.many 2]⟩, ⟨some 938, none⟩), (⟨some 12, .R, [.many 1],
  []⟩, ⟨some 939, none⟩), (⟨some 13, .L, [.many 1], []⟩, ⟨some 940, none⟩), (⟨some 14, .L, [.many 1], [.one 2]⟩, ⟨some 941,
  none⟩), (⟨some 15, .L, [.one 1], [.many 2]⟩, ⟨some 943, none⟩), (⟨some 16, .R, [.one 2], [.many 2]⟩, ⟨some 944, none⟩),
  (⟨some 16, .R, [.many 2], []⟩, ⟨some 945, none⟩), (⟨some 15, .L, [.many 2], []⟩, ⟨some 946, none⟩), (⟨some 15, .L, [],
  [.many 2]⟩, ⟨some 947, none⟩), (⟨some 4, .R, [], [.many 2]⟩, ⟨some 948, none⟩), (⟨some 0, .R, [.one 4], [.many 2]⟩,
  ⟨some 949, none⟩), (⟨some 1, .R, [.many 4], [.many 2]⟩, ⟨some 955, some 5⟩), (⟨some 2, .R, [.many 4], [.many 2]⟩, ⟨some 956,
  some 5⟩), (⟨some 3, .R, [.many 4], [.many 2]⟩, ⟨some 957, some 5⟩), (⟨some 4, .R, [.many 4], [.many 2]⟩, ⟨some 958, some 5⟩),
  (⟨some 0, .R, [.many 4], [.many 2]⟩, ⟨some 954, none⟩), (⟨some 0, .R, [.many 4], [.one 2]⟩, ⟨some 959, none⟩), (⟨some 1, .R,
  [.many 4], []⟩, ⟨some 960, none⟩), (⟨some 5, .R, [.one 3, .many 4], []⟩, ⟨some 961, none⟩), (⟨some 6, .R, [.many 3, .many 4],
  []⟩, ⟨some 962, none⟩), (⟨some 7, .R, [.many 3, .many 4], []⟩, ⟨some 963, none⟩), (⟨some 8, .R, [.many 3, .many 4], []⟩,
  ⟨some 1066, some 44⟩), (⟨some 9, .L, [.many 3, .many 4], []⟩, ⟨some 1067, some 44⟩), (⟨some 10, .L, [.many 3, .many 4],
  [.one 1]⟩, ⟨some 1068, some 44⟩), (⟨some 11, .L, [.many 3, .many 4], [.many 1]⟩, ⟨some 1069, some 44⟩), (⟨some 12, .R,
  [.one 1, .one 3, .many 4], [.many 1]⟩, ⟨some 968, none⟩), (⟨some 12, .R, [.many 1, .one 3, .many 4], []⟩, ⟨some 1046,
  some 44⟩), (⟨some 13, .L, [.many 1, .one 3, .many 4], []⟩, ⟨some 1047, some 44⟩), (⟨some 14, .L, [.many 1, .one 3, .many 4],
  [.one 2]⟩, ⟨some 1048, some 44⟩), (⟨some 15, .L, [.one 1, .one 3, .many 4], [.many 2]⟩, ⟨some 1050, some 44⟩), (⟨some 16, .R,
  [.one 2, .one 3, .many 4], [.many 2]⟩, ⟨some 1051, some 44⟩), (⟨some 16, .R, [.many 2, .one 3, .many 4], []⟩, ⟨some 1052,
  some 44⟩), (⟨some 15, .L, [.many 2, .one 3, .many 4], []⟩, ⟨some 1053, some 44⟩), (⟨some 15, .L, [.one 3, .many 4],
  [.many 2]⟩, ⟨some 1054, some 44⟩), (⟨some 12, .R, [.one 1, .many 4], [.many 2]⟩, ⟨some 1055, some 44⟩), (⟨some 12, .R,
  [.many 1, .many 4], []⟩, ⟨some 1056, some 44⟩), (⟨some 13, .L, [.many 1, .many 4], []⟩, ⟨some 1057, some 44⟩), (⟨some 14, .L,
  [.many 1, .many 4], [.one 2]⟩, ⟨some 1058, some 44⟩), (⟨some 15, .L, [.one 1, .many 4], [.many 2]⟩, ⟨some 1060, some 44⟩),
  (⟨some 16, .R, [.one 2, .many 4], [.many 2]⟩, ⟨some 1061, some 44⟩), (⟨some 16, .R, [.many 2, .many 4], []⟩, ⟨some 1062,
  some 44⟩), (⟨some 15, .L, [.many 2, .many 4], []⟩, ⟨some 1063, some 44⟩), (⟨some 15, .L, [.many 4], [.many 2]⟩, ⟨some 1064,
  some 44⟩), (⟨some 8, .R, [.one 3, .many 4], [.many 2]⟩, ⟨some 1065, some 44⟩), (⟨some 12, .R, [.one 1, .many 3, .many 4],
  [.many 1]⟩, ⟨some 1070, some 44⟩), (⟨some 12, .R, [.many 1, .many 3, .many 4], []⟩, ⟨some 1071, some 35⟩), (⟨some 13, .L,
  [.many 1, .many 3, .many 4], []⟩, ⟨some 1072, some 35⟩), (⟨some 14, .L, [.many 1, .many 3, .many 4], [.one 2]⟩, ⟨some 1073,
  some 35⟩), (⟨some 15, .L, [.many 2, .many 3, .many 4], []⟩, ⟨some 1077, some 34⟩), (⟨some 15, .L, [.many 3, .many 4],
  [.many 2]⟩, ⟨some 1078, some 34⟩), (⟨some 12, .R, [.one 1, .one 3, .many 4], [.many 2]⟩, ⟨some 1045, some 44⟩), (⟨some 12,
  .R, [.one 1, .many 3, .many 4], [.many 2]⟩, ⟨some 1079, some 44⟩)], [(⟨some 15, .L, [.many 1, .many 4], [.many 2]⟩,
  .diff ⟨⟨.L, [⟨1, some (.expr ⟨[⟨[⟨0, 1⟩], 1⟩], 2⟩)⟩, ⟨4, some (.expr ⟨[⟨[⟨1, 1⟩], 1⟩], 1⟩)⟩, ⟨0, none⟩], [⟨2,
  some (.expr ⟨[⟨[⟨2, 1⟩], 1⟩], 1⟩)⟩, ⟨0, none⟩]⟩, ⟨.L, [⟨1, some (.num (-1))⟩, ⟨4, some (.num 0)⟩, ⟨0, none⟩], [⟨2,
  some (.num 1)⟩, ⟨0, none⟩]⟩, .expr ⟨[⟨[⟨2, 1⟩], 2⟩], 5⟩, [15, 16], false⟩), (⟨some 15, .L, [.many 1, .one 3, .one 4],
  [.many 2]⟩, .diff ⟨⟨.L, [⟨1, some (.expr ⟨[⟨[⟨4, 1⟩], 1⟩], 2⟩)⟩, ⟨3, some (.num 1)⟩, ⟨4, some (.num 1)⟩, ⟨0, none⟩], [⟨2,
  some (.expr ⟨[⟨[⟨5, 1⟩], 1⟩], 1⟩)⟩, ⟨0, none⟩]⟩, ⟨.L, [⟨1, some (.num (-1))⟩, ⟨3, some (.num 0)⟩, ⟨4, some (.num 0)⟩, ⟨0,
  none⟩], [⟨2, some (.num 1)⟩, ⟨0, none⟩]⟩, .expr ⟨[⟨[⟨5, 1⟩], 2⟩], 5⟩, [15, 16], false⟩), (⟨some 15, .L, [.many 1, .one 4],
  [.many 2]⟩, .diff ⟨⟨.L, [⟨1, some (.expr ⟨[⟨[⟨7, 1⟩], 1⟩], 2⟩)⟩, ⟨4, some (.num 1)⟩, ⟨0, none⟩], [⟨2, some (.expr ⟨[⟨[⟨8,
  1⟩], 1⟩], 1⟩)⟩, ⟨0, none⟩]⟩, ⟨.L, [⟨1, some (.num (-1))⟩, ⟨4, some (.num 0)⟩, ⟨0, none⟩], [⟨2, some (.num 1)⟩, ⟨0, none⟩]⟩,
  .expr ⟨[⟨[⟨8, 1⟩], 2⟩], 5⟩, [15, 16], false⟩), (⟨some 15, .L, [.many 1, .many 3], [.many 2]⟩, .diff ⟨⟨.L, [⟨1,
  some (.expr ⟨[⟨[⟨10, 1⟩], 1⟩], 2⟩)⟩, ⟨3, some (.expr ⟨[⟨[⟨11, 1⟩], 1⟩], 1⟩)⟩, ⟨0, none⟩], [⟨2, some (.expr ⟨[⟨[⟨12, 1⟩], 1⟩],
  1⟩)⟩, ⟨0, none⟩]⟩, ⟨.L, [⟨1, some (.num (-1))⟩, ⟨3, some (.num 0)⟩, ⟨0, none⟩], [⟨2, some (.num 1)⟩, ⟨0, none⟩]⟩,
  .expr ⟨[⟨[⟨12, 1⟩], 2⟩], 5⟩, [15, 16], false⟩), (⟨some 15, .L, [.many 1, .one 3], [.many 2]⟩, .diff ⟨⟨.L, [⟨1,
  some (.expr ⟨[⟨[⟨14, 1⟩], 1⟩], 2⟩)⟩, ⟨3, some (.num 1)⟩, ⟨0, none⟩], [⟨2, some (.expr ⟨[⟨[⟨15, 1⟩], 1⟩], 1⟩)⟩, ⟨0, none⟩]⟩,
  ⟨.L, [⟨1, some (.num (-1))⟩, ⟨3, some (.num 0)⟩, ⟨0, none⟩], [⟨2, some (.num 1)⟩, ⟨0, none⟩]⟩, .expr ⟨[⟨[⟨15, 1⟩], 2⟩], 5⟩,
  [15, 16], false⟩), (⟨some 15, .L, [.many 1], [.many 2]⟩, .diff ⟨⟨.L, [⟨1, some (.expr ⟨[⟨[⟨17, 1⟩], 1⟩], 2⟩)⟩, ⟨0, none⟩],
  [⟨2, some (.expr ⟨[⟨[⟨18, 1⟩], 1⟩], 1⟩)⟩, ⟨0, none⟩]⟩, ⟨.L, [⟨1, some (.num (-1))⟩, ⟨0, none⟩], [⟨2, some (.num 1)⟩, ⟨0,
  none⟩]⟩, .expr ⟨[⟨[⟨18, 1⟩], 2⟩], 5⟩, [15, 16], false⟩), (⟨some 15, .L, [.many 1, .one 3, .many 4], [.many 2]⟩, .diff ⟨⟨.L,
  [⟨1, some (.expr ⟨[⟨[⟨23, 1⟩], 1⟩], 2⟩)⟩, ⟨3, some (.num 1)⟩, ⟨4, some (.expr ⟨[⟨[⟨24, 1⟩], 1⟩], 1⟩)⟩, ⟨0, none⟩], [⟨2,
  some (.expr ⟨[⟨[⟨25, 1⟩], 1⟩], 1⟩)⟩, ⟨0, none⟩]⟩, ⟨.L, [⟨1, some (.num (-1))⟩, ⟨3, some (.num 0)⟩, ⟨4, some (.num 0)⟩, ⟨0,
  none⟩], [⟨2, some (.num 1)⟩, ⟨0, none⟩]⟩, .expr ⟨[⟨[⟨25, 1⟩], 2⟩], 5⟩, [15, 16], false⟩), (⟨some 15, .L, [.many 1, .many 3,
  .many 4], [.many 2]⟩, .diff ⟨⟨.L, [⟨1, some (.expr ⟨[⟨[⟨28, 1⟩], 1⟩], 2⟩)⟩, ⟨3, some (.expr ⟨[⟨[⟨29, 1⟩], 1⟩], 1⟩)⟩, ⟨4,
  some (.expr ⟨[⟨[⟨30, 1⟩], 1⟩], 1⟩)⟩, ⟨0, none⟩], [⟨2, some (.expr ⟨[⟨[⟨31, 1⟩], 1⟩], 1⟩)⟩, ⟨0, none⟩]⟩, ⟨.L, [⟨1,
  some (.num (-1))⟩, ⟨3, some (.num 0)⟩, ⟨4, some (.num 0)⟩, ⟨0, none⟩], [⟨2, some (.num 1)⟩, ⟨0, none⟩]⟩, .expr ⟨[⟨[⟨31, 1⟩],
  2⟩], 5⟩, [15, 16], false⟩), (⟨some 15, .L, [.one 1, .many 3, .many 4], [.many 2]⟩, .diff ⟨⟨.L, [⟨1, some (.num 1)⟩, ⟨3,
  some (.expr ⟨[⟨[⟨37, 1⟩], 1⟩], 4⟩)⟩, ⟨4, some (.expr ⟨[⟨[⟨38, 1⟩], 1⟩], 3⟩)⟩, ⟨0, none⟩], [⟨2, some (.expr ⟨[⟨[⟨39, 1⟩], 1⟩],
  4⟩)⟩, ⟨0, none⟩]⟩, ⟨.L, [⟨1, some (.num 0)⟩, ⟨3, some (.num (-1))⟩, ⟨4, some (.num 0)⟩, ⟨0, none⟩], [⟨2, some (.num 1)⟩, ⟨0,
  none⟩]⟩, .expr ⟨[⟨[⟨39, 1⟩], 15⟩, ⟨[⟨39, 2⟩], 1⟩], 47⟩, [15, 16, 12, 13, 14], true⟩), (⟨some 16, .R, [.one 2, .many 3,
  .many 4], [.many 2]⟩, .diff ⟨⟨.R, [⟨2, some (.num 1)⟩, ⟨3, some (.expr ⟨[⟨[⟨52, 1⟩], 1⟩], 5⟩)⟩, ⟨4, some (.expr ⟨[⟨[⟨53, 1⟩],
  1⟩], 2⟩)⟩, ⟨0, none⟩], [⟨2, some (.expr ⟨[⟨[⟨54, 1⟩], 1⟩], 4⟩)⟩, ⟨0, none⟩]⟩, ⟨.R, [⟨2, some (.num 0)⟩, ⟨3,
  some (.num (-1))⟩, ⟨4, some (.num 0)⟩, ⟨0, none⟩], [⟨2, some (.num 1)⟩, ⟨0, none⟩]⟩, .expr ⟨[⟨[⟨54, 1⟩], 15⟩, ⟨[⟨54, 2⟩],
  1⟩], 47⟩, [16, 15, 12, 13, 14], true⟩), (⟨some 16, .R, [.many 2, .many 3, .many 4], []⟩, .diff ⟨⟨.R, [⟨2,
  some (.expr ⟨[⟨[⟨65, 1⟩], 1⟩], 8⟩)⟩, ⟨3, some (.expr ⟨[⟨[⟨66, 1⟩], 1⟩], 2⟩)⟩, ⟨4, some (.expr ⟨[⟨[⟨67, 1⟩], 1⟩], 2⟩)⟩, ⟨0,
  none⟩], [⟨0, none⟩]⟩, ⟨.R, [⟨2, some (.num 1)⟩, ⟨3, some (.num (-1))⟩, ⟨4, some (.num 0)⟩, ⟨0, none⟩], [⟨0, none⟩]⟩,
  .expr ⟨[⟨[⟨65, 1⟩], 21⟩, ⟨[⟨65, 2⟩], 1⟩], 102⟩, [16, 15, 12, 13, 14], true⟩), (⟨some 15, .L, [.many 1, .many 3, .one 4],
  [.many 2]⟩, .diff ⟨⟨.L, [⟨1, some (.expr ⟨[⟨[⟨73, 1⟩], 1⟩], 2⟩)⟩, ⟨3, some (.expr ⟨[⟨[⟨74, 1⟩], 1⟩], 1⟩)⟩, ⟨4,
  some (.num 1)⟩, ⟨0, none⟩], [⟨2, some (.expr ⟨[⟨[⟨75, 1⟩], 1⟩], 1⟩)⟩, ⟨0, none⟩]⟩, ⟨.L, [⟨1, some (.num (-1))⟩, ⟨3,
  some (.num 0)⟩, ⟨4, some (.num 0)⟩, ⟨0, none⟩], [⟨2, some (.num 1)⟩, ⟨0, none⟩]⟩, .expr ⟨[⟨[⟨75, 1⟩], 2⟩], 5⟩, [15, 16],
  false⟩), (⟨some 15, .L, [.one 1, .many 3, .one 4], [.many 2]⟩, .diff ⟨⟨.L, [⟨1, some (.num 1)⟩, ⟨3, some (.expr ⟨[⟨[⟨79, 1⟩],
  1⟩], 3⟩)⟩, ⟨4, some (.num 1)⟩, ⟨0, none⟩], [⟨2, some (.expr ⟨[⟨[⟨80, 1⟩], 1⟩], 7⟩)⟩, ⟨0, none⟩]⟩, ⟨.L, [⟨1, some (.num 0)⟩,
  ⟨3, some (.num (-1))⟩, ⟨4, some (.num 0)⟩, ⟨0, none⟩], [⟨2, some (.num 1)⟩, ⟨0, none⟩]⟩, .expr ⟨[⟨[⟨80, 1⟩], 21⟩, ⟨[⟨80, 2⟩],
  1⟩], 101⟩, [15, 16, 12, 13, 14], true⟩), (⟨some 15, .L, [.one 1, .many 3], [.many 2]⟩, .diff ⟨⟨.L, [⟨1, some (.num 1)⟩, ⟨3,
  some (.expr ⟨[⟨[⟨88, 1⟩], 1⟩], 7⟩)⟩, ⟨0, none⟩], [⟨2, some (.expr ⟨[⟨[⟨89, 1⟩], 1⟩], 4⟩)⟩, ⟨0, none⟩]⟩, ⟨.L, [⟨1,
  some (.num 0)⟩, ⟨3, some (.num (-1))⟩, ⟨0, none⟩], [⟨2, some (.num 1)⟩, ⟨0, none⟩]⟩, .expr ⟨[⟨[⟨89, 1⟩], 15⟩, ⟨[⟨89, 2⟩],
  1⟩], 47⟩, [15, 16, 12, 13, 14], true⟩), (⟨some 16, .R, [.one 2, .many 3], [.many 2]⟩, .diff ⟨⟨.R, [⟨2, some (.num 1)⟩, ⟨3,
  some (.expr ⟨[⟨[⟨97, 1⟩], 1⟩], 4⟩)⟩, ⟨0, none⟩], [⟨2, some (.expr ⟨[⟨[⟨98, 1⟩], 1⟩], 7⟩)⟩, ⟨0, none⟩]⟩, ⟨.R, [⟨2,
  some (.num 0)⟩, ⟨3, some (.num (-1))⟩, ⟨0, none⟩], [⟨2, some (.num 1)⟩, ⟨0, none⟩]⟩, .expr ⟨[⟨[⟨98, 1⟩], 21⟩, ⟨[⟨98, 2⟩],
  1⟩], 101⟩, [16, 15, 12, 13, 14], true⟩)]⟩

/-- after 1620 loops -/
def c57At1620 : Recursive.Base Nat (Option Nat) :=
  ⟨⟨⟨⟨.R, [⟨2, some (.num 1)⟩, ⟨3, some (.num 2)⟩, ⟨4, some (.num 15)⟩, ⟨0, none⟩], [⟨2, some (.num 2)⟩, ⟨0, none⟩]⟩, some 16,
  .R, .num 3483, 1620, [(0, .num 3432), (5, .num 3433), (6, .num 3434), (7, .num 3435), (8, .num 3473), (9, .num 3474), (10,
  .num 3475), (11, .num 3476), (12, .num 3479), (13, .num 3480), (14, .num 3481), (15, .num 3482), (16, .num 3463), (4,
  .num 3431), (1, .num 3428), (2, .num 3429), (3, .num 3430)], .running, none, none, []⟩, .num 9299, 101, 335⟩, [(⟨some 16, .R,
  [.one 2, .many 3, .one 4], [.many 2]⟩, ⟨none, some 10⟩), (⟨some 16, .R, [.many 2, .many 3, .one 4], []⟩, ⟨some 1478,
  some 11⟩), (⟨some 15, .L, [.many 2, .many 3, .one 4], []⟩, ⟨some 1479, some 11⟩), (⟨some 15, .L, [.many 3, .one 4],
  [.many 2]⟩, ⟨some 1480, some 11⟩), (⟨some 12, .R, [.one 1, .many 3, .one 4], [.many 2]⟩, ⟨some 1470, some 10⟩), (⟨some 12,
  .R, [.many 1, .many 3, .one 4], []⟩, ⟨some 1471, some 10⟩), (⟨some 13, .L, [.many 1, .many 3, .one 4], []⟩, ⟨some 1472,
  some 10⟩), (⟨some 14, .L, [.many 1, .many 3, .one 4], [.one 2]⟩, ⟨some 1473, some 10⟩), (⟨some 12, .R, [.one 1, .one 3,
  .one 4], [.many 2]⟩, ⟨some 1481, none⟩), (⟨some 12, .R, [.many 1, .one 3, .one 4], []⟩, ⟨some 1482, none⟩), (⟨some 13, .L,
  [.many 1, .one 3, .one 4], []⟩, ⟨some 1483, none⟩), (⟨some 14, .L, [.many 1, .one 3, .one 4], [.one 2]⟩, ⟨some 1484, none⟩),
  (⟨some 15, .L, [.one 1, .one 3, .one 4], [.many 2]⟩, ⟨some 1486, none⟩), (⟨some 16, .R, [.one 2, .one 3, .one 4], [.many 2]⟩,
  ⟨some 1487, none⟩), (⟨some 16, .R, [.many 2, .one 3, .one 4], []⟩, ⟨some 1488, none⟩), (⟨some 15, .L, [.many 2, .one 3,
  .one 4], []⟩, ⟨some 1489, none⟩), (⟨some 15, .L, [.one 3, .one 4], [.many 2]⟩, ⟨some 1490, none⟩), (⟨some 12, .R, [.one 1,
  .one 4], [.many 2]⟩, ⟨some 1491, none⟩), (⟨some 12, .R, [.many 1, .one 4], []⟩, ⟨some 1492, none⟩), (⟨some 13, .L, [.many 1,
  .one 4], []⟩, ⟨some 1493, none⟩), (⟨some 14, .L, [.many 1, .one 4], [.one 2]⟩, ⟨some 1494, none⟩), (⟨some 15, .L, [.one 1,
  .one 4], [.many 2]⟩, ⟨some 1496, none⟩), (⟨some 16, .R, [.one 2, .one 4], [.many 2]⟩, ⟨some 1497, none⟩), (⟨some 16, .R,
  [.many 2, .one 4], []⟩, ⟨some 1498, none⟩), (⟨some 15, .L, [.many 2, .one 4], []⟩, ⟨some 1499, none⟩), (⟨some 15, .L,
  [.one 4], [.many 2]⟩, ⟨some 1500, none⟩), (⟨some 8, .R, [.one 3], [.many 2]⟩, ⟨some 1501, none⟩), (⟨some 8, .R, [.many 3],
  []⟩, ⟨some 1502, none⟩), (⟨some 9, .L, [.many 3], []⟩, ⟨some 1503, none⟩), (⟨some 10, .L, [.many 3], [.one 1]⟩, ⟨some 1504,
  none⟩), (⟨some 11, .L, [.many 3], [.many 1]⟩, ⟨some 1505, none⟩), (⟨some 12, .R, [.one 1, .many 3], [.many 1]⟩, ⟨some 1506,
  none⟩), (⟨some 12, .R, [.many 1, .many 3], []⟩, ⟨some 1538, some 12⟩), (⟨some 13, .L, [.many 1, .many 3], []⟩, ⟨some 1539,
  some 12⟩), (⟨some 14, .L, [.many 1, .many 3], [.one 2]⟩, ⟨some 1540, some 12⟩), (⟨some 16, .R, [.many 2, .many 3], []⟩,
  ⟨some 1544, some 10⟩), (⟨some 15, .L, [.many 2, .many 3], []⟩, ⟨some 1545, some 10⟩), (⟨some 15, .L, [.many 3], [.many 2]⟩,
  ⟨some 1546, some 10⟩), (⟨some 12, .R, [.one 1, .many 3], [.many 2]⟩, ⟨some 1537, some 12⟩), (⟨some 12, .R, [.one 1, .one 3],
  [.many 2]⟩, ⟨some 1547, none⟩), (⟨some 12, .R, [.many 1, .one 3], []⟩, ⟨some 1548, none⟩), (⟨some 13, .L, [.many 1, .one 3],
  []⟩, ⟨some 1549, none⟩), (⟨some 14, .L, [.many 1, .one 3], [.one 2]⟩, ⟨some 1550, none⟩), (⟨some 15, .L, [.one 1, .one 3],
  [.many 2]⟩, ⟨some 1552, none⟩), (⟨some 16, .R, [.one 2, .one 3], [.many 2]⟩, ⟨some 1553, none⟩), (⟨some 16, .R, [.many 2,
  .one 3], []⟩, ⟨some 1554, none⟩), (⟨some 15, .L, [.many 2, .one 3], []⟩, ⟨some 1555, none⟩), (⟨some 15, .L, [.one 3],
  [.many 2]⟩, ⟨some 1556, none⟩), (⟨some 12, .R, [.one 1], [.many 2]⟩, ⟨some 1557, none⟩), (⟨some 12, .R, [.many 1], []⟩,
  ⟨some 1558, none⟩), (⟨some 13, .L, [.many 1], []⟩, ⟨some 1559, none⟩), (⟨some 14, .L, [.many 1], [.one 2]⟩, ⟨some 1560,
  none⟩), (⟨some 15, .L, [.one 1], [.many 2]⟩, ⟨some 1562, none⟩), (⟨some 16, .R, [.one 2], [.many 2]⟩, ⟨some 1563, none⟩),
  (⟨some 16, .R, [.many 2], []⟩, ⟨some 1564, none⟩), (⟨some 15, .L, [.many 2], []⟩, ⟨some 1565, none⟩), (⟨some 15, .L, [],
  [.many 2]⟩, ⟨some 1566, none⟩), (⟨some 4, .R, [], [.many 2]⟩, ⟨some 1567, none⟩), (⟨some 0, .R, [.one 4], [.many 2]⟩,
  ⟨some 1568, none⟩), (⟨some 1, .R, [.many 4], [.many 2]⟩, ⟨some 1574, some 5⟩), (⟨some 2, .R, [.many 4], [.many 2]⟩,
  ⟨some 1575, some 5⟩), (⟨some 3, .R, [.many 4], [.many 2]⟩, ⟨some 1576, some 5⟩), (⟨some 4, .R, [.many 4], [.many 2]⟩,
  ⟨some 1577, some 5⟩), (⟨some 0, .R, [.many 4], [.many 2]⟩, ⟨some 1578, some 5⟩), (⟨some 4, .R, [.many 4], [.one 2]⟩,
  ⟨some 1582, none⟩), (⟨some 0, .R, [.many 4], []⟩, ⟨some 1583, none⟩), (⟨some 5, .R, [.one 3, .many 4], []⟩, ⟨some 1584,
  none⟩), (⟨some 6, .R, [.many 3, .many 4], []⟩, ⟨some 1585, none⟩), (⟨some 7, .R, [.many 3, .many 4], []⟩, ⟨some 1586, none⟩),
  (⟨some 8, .R, [.many 3, .many 4], []⟩, ⟨some 1611, some 24⟩), (⟨some 9, .L, [.many 3, .many 4], []⟩, ⟨some 1612, some 24⟩),
  (⟨some 10, .L, [.many 3, .many 4], [.one 1]⟩, ⟨some 1613, some 24⟩), (⟨some 11, .L, [.many 3, .many 4], [.many 1]⟩,
  ⟨some 1614, some 24⟩), (⟨some 12, .R, [.one 1, .one 3, .many 4], [.many 1]⟩, ⟨some 1591, none⟩), (⟨some 12, .R, [.many 1,
  .one 3, .many 4], []⟩, ⟨some 1592, none⟩), (⟨some 13, .L, [.many 1, .one 3, .many 4], []⟩, ⟨some 1593, none⟩), (⟨some 14, .L,
  [.many 1, .one 3, .many 4], [.one 2]⟩, ⟨some 1594, none⟩), (⟨some 15, .L, [.one 1, .one 3, .many 4], [.many 2]⟩, ⟨some 1595,
  none⟩), (⟨some 16, .R, [.one 2, .one 3, .many 4], [.many 2]⟩, ⟨some 1596, none⟩), (⟨some 15, .L, [.many 2, .one 3, .many 4],
  []⟩, ⟨some 1598, none⟩), (⟨some 15, .L, [.one 3, .many 4], [.many 2]⟩, ⟨some 1599, none⟩), (⟨some 12, .R, [.one 1, .many 4],
  [.many 2]⟩, ⟨some 1600, none⟩), (⟨some 12, .R, [.many 1, .many 4], []⟩, ⟨some 1601, none⟩), (⟨some 13, .L, [.many 1,
  .many 4], []⟩, ⟨some 1602, none⟩), (⟨some 14, .L, [.many 1, .many 4], [.one 2]⟩, ⟨some 1603, none⟩), (⟨some 15, .L, [.one 1,
  .many 4], [.many 2]⟩, ⟨some 1605, none⟩), (⟨some 16, .R, [.one 2, .many 4], [.many 2]⟩, ⟨some 1606, none⟩), (⟨some 16, .R,
  [.many 2, .many 4], []⟩, ⟨some 1607, none⟩), (⟨some 15, .L, [.many 2, .many 4], []⟩, ⟨some 1608, none⟩), (⟨some 15, .L,
  [.many 4], [.many 2]⟩, ⟨some 1609, none⟩), (⟨some 8, .R, [.one 3, .many 4], [.many 2]⟩, ⟨some 1610, none⟩), (⟨some 12, .R,
  [.one 1, .many 3, .many 4], [.many 1]⟩, ⟨some 1615, none⟩), (⟨some 12, .R, [.many 1, .many 3, .many 4], []⟩, ⟨some 1616,
  none⟩), (⟨some 13, .L, [.many 1, .many 3, .many 4], []⟩, ⟨some 1617, none⟩), (⟨some 14, .L, [.many 1, .many 3, .many 4],
  [.one 2]⟩, ⟨some 1618, none⟩)], [(⟨some 15, .L, [.many 1, .many 4], [.many 2]⟩, .diff ⟨⟨.L, [⟨1, some (.expr ⟨[⟨[⟨0, 1⟩],
  1⟩], 2⟩)⟩, ⟨4, some (.expr ⟨[⟨[⟨1, 1⟩], 1⟩], 1⟩)⟩, ⟨0, none⟩], [⟨2, some (.expr ⟨[⟨[⟨2, 1⟩], 1⟩], 1⟩)⟩, ⟨0, none⟩]⟩, ⟨.L,
  [⟨1, some (.num (-1))⟩, ⟨4, some (.num 0)⟩, ⟨0, none⟩], [⟨2, some (.num 1)⟩, ⟨0, none⟩]⟩, .expr ⟨[⟨[⟨2, 1⟩], 2⟩], 5⟩, [15,
  16], false⟩), (⟨some 15, .L, [.many 1, .one 3, .one 4], [.many 2]⟩, .diff ⟨⟨.L, [⟨1, some (.expr ⟨[⟨[⟨4, 1⟩], 1⟩], 2⟩)⟩, ⟨3,
  some (.num 1)⟩, ⟨4, some (.num 1)⟩, ⟨0, none⟩], [⟨2, some (.expr ⟨[⟨[⟨5, 1⟩], 1⟩], 1⟩)⟩, ⟨0, none⟩]⟩, ⟨.L, [⟨1,
  some (.num (-1))⟩, ⟨3, some (.num 0)⟩, ⟨4, some (.num 0)⟩, ⟨0, none⟩], [⟨2, some (.num 1)⟩, ⟨0, none⟩]⟩, .expr ⟨[⟨[⟨5, 1⟩],
  2⟩], 5⟩, [15, 16], false⟩), (⟨some 15, .L, [.many 1, .one 4], [.many 2]⟩, .diff ⟨⟨.L, [⟨1, some (.expr ⟨[⟨[⟨7, 1⟩], 1⟩],
  2⟩)⟩, ⟨4, some (.num 1)⟩, ⟨0, none⟩], [⟨2, some (.expr ⟨[⟨[⟨8, 1⟩], 1⟩], 1⟩)⟩, ⟨0, none⟩]⟩, ⟨.L, [⟨1, some (.num (-1))⟩, ⟨4,
  some (.num 0)⟩, ⟨0, none⟩], [⟨2, some (.num 1)⟩, ⟨0, none⟩]⟩, .expr ⟨[⟨[⟨8, 1⟩], 2⟩], 5⟩, [15, 16], false⟩), (⟨some 15, .L,
  [.many 1, .many 3], [.many 2]⟩, .diff ⟨⟨.L, [⟨1, some (.expr ⟨[⟨[⟨10, 1⟩], 1⟩], 2⟩)⟩, ⟨3, some (.expr ⟨[⟨[⟨11, 1⟩], 1⟩],
  1⟩)⟩, ⟨0, none⟩], [⟨2, some (.expr ⟨[⟨[⟨12, 1⟩], 1⟩], 1⟩)⟩, ⟨0, none⟩]⟩, ⟨.L, [⟨1, some (.num (-1))⟩, ⟨3, some (.num 0)⟩, ⟨0,
  none⟩], [⟨2, some (.num 1)⟩, ⟨0, none⟩]⟩, .expr ⟨[⟨[⟨12, 1⟩], 2⟩], 5⟩, [15, 16], false⟩), (⟨some 15, .L, [.many 1, .one 3],
  [.many 2]⟩, .diff ⟨⟨.L, [⟨1, some (.expr ⟨[⟨[⟨14, 1⟩], 1⟩], 2⟩)⟩, ⟨3, some (.num 1)⟩, ⟨0, none⟩], [⟨2, some (.expr ⟨[⟨[⟨15,
  1⟩], 1⟩], 1⟩)⟩, ⟨0, none⟩]⟩, ⟨.L, [⟨1, some (.num (-1))⟩, ⟨3, some (.num 0)⟩, ⟨0, none⟩], [⟨2, some (.num 1)⟩, ⟨0, none⟩]⟩,
  .expr ⟨[⟨[⟨15, 1⟩], 2⟩], 5⟩, [15, 16], false⟩), (⟨some 15, .L, [.many 1], [.many 2]⟩, .diff ⟨⟨.L, [⟨1, some (.expr ⟨[⟨[⟨17,
  1⟩], 1⟩], 2⟩)⟩, ⟨0, none⟩], [⟨2, some (.expr ⟨[⟨[⟨18, 1⟩], 1⟩], 1⟩)⟩, ⟨0, none⟩]⟩, ⟨.L, [⟨1, some (.num (-1))⟩, ⟨0, none⟩],
  [⟨2, some (.num 1)⟩, ⟨0, none⟩]⟩, .expr ⟨[⟨[⟨18, 1⟩], 2⟩], 5⟩, [15, 16], false⟩), (⟨some 15, .L, [.many 1, .one 3, .many 4],
  [.many 2]⟩, .diff ⟨⟨.L, [⟨1, some (.expr ⟨[⟨[⟨23, 1⟩], 1⟩], 2⟩)⟩, ⟨3, some (.num 1)⟩, ⟨4, some (.expr ⟨[⟨[⟨24, 1⟩], 1⟩],
  1⟩)⟩, ⟨0, none⟩], [⟨2, some (.expr ⟨[⟨[⟨25, 1⟩], 1⟩], 1⟩)⟩, ⟨0, none⟩]⟩, ⟨.L, [⟨1, some (.num (-1))⟩, ⟨3, some (.num 0)⟩, ⟨4,
  some (.num 0)⟩, ⟨0, none⟩], [⟨2, some (.num 1)⟩, ⟨0, none⟩]⟩, .expr ⟨[⟨[⟨25, 1⟩], 2⟩], 5⟩, [15, 16], false⟩), (⟨some 15, .L,
  [.many 1, .many 3, .many 4], [.many 2]⟩, .diff ⟨⟨.L, [⟨1, some (.expr ⟨[⟨[⟨28, 1⟩], 1⟩], 2⟩)⟩, ⟨3, some (.expr ⟨[⟨[⟨29, 1⟩],
  1⟩], 1⟩)⟩, ⟨4, some (.expr ⟨[⟨[⟨30, 1⟩], 1⟩], 1⟩)⟩, ⟨0, none⟩], [⟨2, some (.expr ⟨[⟨[⟨31, 1⟩], 1⟩], 1⟩)⟩, ⟨0, none⟩]⟩, ⟨.L,
  [⟨1, some (.num (-1))⟩, ⟨3, some (.num 0)⟩, ⟨4, some (.num 0)⟩, ⟨0, none⟩], [⟨2, some (.num 1)⟩, ⟨0, none⟩]⟩, .expr ⟨[⟨[⟨31,
  1⟩], 2⟩], 5⟩, [15, 16], false⟩), (⟨some 15, .L, [.one 1, .many 3, .many 4], [.many 2]⟩, .diff ⟨⟨.L, [⟨1, some (.num 1)⟩, ⟨3,
  some (.expr ⟨[⟨[⟨37, 1⟩], 1⟩], 4⟩)⟩, ⟨4, some (.expr ⟨[⟨[⟨38, 1⟩], 1⟩], 3⟩)⟩, ⟨0, none⟩], [⟨2, some (.expr ⟨[⟨[⟨39, 1⟩], 1⟩],
  4⟩)⟩, ⟨0, none⟩]⟩, ⟨.L, [⟨1, some (.num 0)⟩, ⟨3, some (.num (-1))⟩, ⟨4, some (.num 0)⟩, ⟨0, none⟩], [⟨2, some (.num 1)⟩, ⟨0,
  none⟩]⟩, .expr ⟨[⟨[⟨39, 1⟩], 15⟩, ⟨[⟨39, 2⟩], 1⟩], 47⟩, [15, 16, 12, 13, 14], true⟩), (⟨some 16, .R, [.one 2, .many 3,
  .many 4], [.many 2]⟩, .diff ⟨⟨.R, [⟨2, some (.num 1)⟩, ⟨3, some (.expr ⟨[⟨[⟨52, 1⟩], 1⟩], 5⟩)⟩, ⟨4, some (.expr ⟨[⟨[⟨53, 1⟩],
  1⟩], 2⟩)⟩, ⟨0, none⟩], [⟨2, some (.expr ⟨[⟨[⟨54, 1⟩], 1⟩], 4⟩)⟩, ⟨0, none⟩]⟩, ⟨.R, [⟨2, some (.num 0)⟩, ⟨3,
  some (.num (-1))⟩, ⟨4, some (.num 0)⟩, ⟨0, none⟩], [⟨2, some (.num 1)⟩, ⟨0, none⟩]⟩, .expr ⟨[⟨[⟨54, 1⟩], 15⟩, ⟨[⟨54, 2⟩],
  1⟩], 47⟩, [16, 15, 12, 13, 14], true⟩), (⟨some 16, .R, [.many 2, .many 3, .many 4], []⟩, .diff ⟨⟨.R, [⟨2,
  some (.expr ⟨[⟨[⟨65, 1⟩], 1⟩], 8⟩)⟩, ⟨3, some (.expr ⟨[⟨[⟨66, 1⟩], 1⟩], 2⟩)⟩, ⟨4, some (.expr ⟨[⟨[⟨67, 1⟩], 1⟩], 2⟩)⟩, ⟨0,
  none⟩], [⟨0, none⟩]⟩, ⟨.R, [⟨2, some (.num 1)⟩, ⟨3, some (.num (-1))⟩, ⟨4, some (.num 0)⟩, ⟨0, none⟩], [⟨0, none⟩]⟩,
  .expr ⟨[⟨[⟨65, 1⟩], 21⟩, ⟨[⟨65, 2⟩], 1⟩], 102⟩, [16, 15, 12, 13, 14], true⟩), (⟨some 15, .L, [.many 1, .many 3, .one 4],
  [.many 2]⟩, .diff ⟨⟨.L, [⟨1, some (.expr ⟨[⟨[⟨73, 1⟩], 1⟩], 2⟩)⟩, ⟨3, some (.expr ⟨[⟨[⟨74, 1⟩], 1⟩], 1⟩)⟩, ⟨4,
  some (.num 1)⟩, ⟨0, none⟩], [⟨2, some (.expr ⟨[⟨[⟨75, 1⟩], 1⟩], 1⟩)⟩, ⟨0, none⟩]⟩, ⟨.L, [⟨1, some (.num (-1))⟩, ⟨3,
  some (.num 0)⟩, ⟨4, some (.num 0)⟩, ⟨0, none⟩], [⟨2, some (.num 1)⟩, ⟨0, none⟩]⟩, .expr ⟨[⟨[⟨75, 1⟩], 2⟩], 5⟩, [15, 16],
  false⟩), (⟨some 15, .L, [.one 1, .many 3, .one 4], [.many 2]⟩, .diff ⟨⟨.L, [⟨1, some (.num 1)⟩, ⟨3, some (.expr ⟨[⟨[⟨79, 1⟩],
  1⟩], 3⟩)⟩, ⟨4, some (.num 1)⟩, ⟨0, none⟩], [⟨2, some (.expr ⟨[⟨[⟨80, 1⟩], 1⟩], 7⟩)⟩, ⟨0, none⟩]⟩, ⟨.L, [⟨1, some (.num 0)⟩,
  ⟨3, some (.num (-1))⟩, ⟨4, some (.num 0)⟩, ⟨0, none⟩], [⟨2, some (.num 1)⟩, ⟨0, none⟩]⟩, .expr ⟨[⟨[⟨80, 1⟩], 21⟩, ⟨[⟨80, 2⟩],
  1⟩], 101⟩, [15, 16, 12, 13, 14], true⟩), (⟨some 15, .L, [.one 1, .many 3], [.many 2]⟩, .diff ⟨⟨.L, [⟨1, some (.num 1)⟩, ⟨3,
  some (.expr ⟨[⟨[⟨88, 1⟩], 1⟩], 7⟩)⟩, ⟨0, none⟩], [⟨2, some (.expr ⟨[⟨[⟨89, 1⟩], 1⟩], 4⟩)⟩, ⟨0, none⟩]⟩, ⟨.L, [⟨1,
  some (.num 0)⟩, ⟨3, some (.num (-1))⟩, ⟨0, none⟩], [⟨2, some (.num 1)⟩, ⟨0, none⟩]⟩, .expr ⟨[⟨[⟨89, 1⟩], 15⟩, ⟨[⟨89, 2⟩],
  1⟩], 47⟩, [15, 16, 12, 13, 14], true⟩), (⟨some 16, .R, [.one 2, .many 3], [.many 2]⟩, .diff ⟨⟨.R, [⟨2, some (.num 1)⟩, ⟨3,
  some (.expr ⟨[⟨[⟨97, 1⟩], 1⟩], 4⟩)⟩, ⟨0, none⟩], [⟨2, some (.expr ⟨[⟨[⟨98, 1⟩], 1⟩], 7⟩)⟩, ⟨0, none⟩]⟩, ⟨.R, [⟨2,
  some (.num 0)⟩, ⟨3, some (.num (-1))⟩, ⟨0, none⟩], [⟨2, some (.num 1)⟩, ⟨0, none⟩]⟩, .expr ⟨[⟨[⟨98, 1⟩], 21⟩, ⟨[⟨98, 2⟩],
  1⟩], 101⟩, [16, 15, 12, 13, 14], true⟩), (⟨some 15, .L, [.many 2, .many 3, .many 4], []⟩, .diff ⟨⟨.L, [⟨2,
  some (.expr ⟨[⟨[⟨134, 1⟩], 1⟩], 5⟩)⟩, ⟨3, some (.expr ⟨[⟨[⟨135, 1⟩], 1⟩], 2⟩)⟩, ⟨4, some (.expr ⟨[⟨[⟨136, 1⟩], 1⟩], 9⟩)⟩, ⟨0,
  none⟩], [⟨0, none⟩]⟩, ⟨.L, [⟨2, some (.num 1)⟩, ⟨3, some (.num (-1))⟩, ⟨4, some (.num 0)⟩, ⟨0, none⟩], [⟨0, none⟩]⟩,
  .expr ⟨[⟨[⟨134, 1⟩], 15⟩, ⟨[⟨134, 2⟩], 1⟩], 48⟩, [15, 12, 13, 14, 16], true⟩), (⟨some 15, .L, [.many 3, .many 4], [.many 2]⟩,
  .diff ⟨⟨.L, [⟨3, some (.expr ⟨[⟨[⟨157, 1⟩], 1⟩], 3⟩)⟩, ⟨4, some (.expr ⟨[⟨[⟨158, 1⟩], 1⟩], 8⟩)⟩, ⟨0, none⟩], [⟨2,
  some (.expr ⟨[⟨[⟨159, 1⟩], 1⟩], 5⟩)⟩, ⟨0, none⟩]⟩, ⟨.L, [⟨3, some (.num (-1))⟩, ⟨4, some (.num 0)⟩, ⟨0, none⟩], [⟨2,
  some (.num 1)⟩, ⟨0, none⟩]⟩, .expr ⟨[⟨[⟨159, 1⟩], 15⟩, ⟨[⟨159, 2⟩], 1⟩], 49⟩, [15, 12, 13, 14, 16], true⟩), (⟨some 16, .R,
  [.many 2, .one 3, .many 4], []⟩, .diff ⟨⟨.R, [⟨2, some (.expr ⟨[⟨[⟨251, 1⟩], 1⟩], 11⟩)⟩, ⟨3, some (.num 1)⟩, ⟨4,
  some (.expr ⟨[⟨[⟨252, 1⟩], 1⟩], 4⟩)⟩, ⟨0, none⟩], [⟨0, none⟩]⟩, ⟨.R, [⟨2, some (.num 1)⟩, ⟨3, some (.num 0)⟩, ⟨4,
  some (.num (-1))⟩, ⟨0, none⟩], [⟨0, none⟩]⟩, .expr ⟨[⟨[⟨251, 1⟩], (650 : Rat)/3⟩, ⟨[⟨251, 2⟩], 15⟩, ⟨[⟨251, 3⟩],
  (1 : Rat)/3⟩], 1010⟩, [16, 15, 12, 13, 14, 8, 9, 10, 11], true⟩), (⟨some 16, .R, [.one 2, .many 3, .one 4], [.many 2]⟩,
  .diff ⟨⟨.R, [⟨2, some (.num 1)⟩, ⟨3, some (.expr ⟨[⟨[⟨296, 1⟩], 1⟩], 10⟩)⟩, ⟨4, some (.num 1)⟩, ⟨0, none⟩], [⟨2,
  some (.expr ⟨[⟨[⟨297, 1⟩], 1⟩], 4⟩)⟩, ⟨0, none⟩]⟩, ⟨.R, [⟨2, some (.num 0)⟩, ⟨3, some (.num (-1))⟩, ⟨4, some (.num 0)⟩, ⟨0,
  none⟩], [⟨2, some (.num 1)⟩, ⟨0, none⟩]⟩, .expr ⟨[⟨[⟨297, 1⟩], 15⟩, ⟨[⟨297, 2⟩], 1⟩], 47⟩, [16, 15, 12, 13, 14], true⟩)]⟩

/-- after 1800 loops -/
def c57At1800 : Recursive.Base Nat (Option Nat) :=
  ⟨⟨⟨⟨.L, [⟨2, some (.num 4)⟩, ⟨3, some (.num 5)⟩, ⟨4, some (.num 11)⟩, ⟨0, none⟩], [⟨0, none⟩]⟩, some 15, .L, .num 3813, 1800,
  [(0, .num 3432), (5, .num 3433), (6, .num 3434), (7, .num 3435), (8, .num 3785), (9, .num 3786), (10, .num 3787), (11,
  .num 3788), (12, .num 3805), (13, .num 3806), (14, .num 3807), (15, .num 3808), (16, .num 3812), (4, .num 3431), (1,
  .num 3428), (2, .num 3429), (3, .num 3430)], .running, none, none, []⟩, .num 9680, 115, 703⟩, [(⟨some 16, .R, [.one 2,
  .many 3, .one 4], [.many 2]⟩, ⟨none, some 10⟩), (⟨some 16, .R, [.many 2, .many 3, .one 4], []⟩, ⟨some 1478, some 11⟩),
  (⟨some 15, .L, [.many 2, .many 3, .one 4], []⟩, ⟨some 1479, some 11⟩), (⟨some 15, .L, [.many 3, .one 4], [.many 2]⟩,
  ⟨some 1480, some 11⟩), (⟨some 12, .R, [.one 1, .many 3, .one 4], [.many 2]⟩, ⟨some 1470, some 10⟩), (⟨some 12, .R, [.many 1,
  .many 3, .one 4], []⟩, ⟨some 1471, some 10⟩), (⟨some 13, .L, [.many 1, .many 3, .one 4], []⟩, ⟨some 1472, some 10⟩),
  (⟨some 14, .L, [.many 1, .many 3, .one 4], [.one 2]⟩, ⟨some 1473, some 10⟩), (⟨some 12, .R, [.one 1, .one 3, .one 4],
  [.many 2]⟩, ⟨some 1481, none⟩), (⟨some 12, .R, [.many 1, .one 3, .one 4], []⟩, ⟨some 1482, none⟩), (⟨some 13, .L, [.many 1,
  .one 3, .one 4], []⟩, ⟨some 1483, none⟩), (⟨some 14, .L, [.many 1, .one 3, .one 4], [.one 2]⟩, ⟨some 1484, none⟩), (⟨some 15,
  .L, [.one 1, .one 3, .one 4], [.many 2]⟩, ⟨some 1486, none⟩), (⟨some 16, .R, [.one 2, .one 3, .one 4], [.many 2]⟩,
  ⟨some 1487, none⟩), (⟨some 16, .R, [.many 2, .one 3, .one 4], []⟩, ⟨some 1488, none⟩), (⟨some 15, .L, [.many 2, .one 3,
  .one 4], []⟩, ⟨some 1489, none⟩), (⟨some 15, .L, [.one 3, .one 4], [.many 2]⟩, ⟨some 1490, none⟩), (⟨some 12, .R, [.one 1,
  .one 4], [.many 2]⟩, ⟨some 1491, none⟩), (⟨some 12, .R, [.many 1, .one 4], []⟩, ⟨some 1492, none⟩), (⟨some 13, .L, [.many 1,
  .one 4], []⟩, ⟨some 1493, none⟩), (⟨some 14, .L, [.many 1, .one 4], [.one 2]⟩, ⟨some 1494, none⟩), (⟨some 15, .L, [.one 1,
  .one 4], [.many 2]⟩, ⟨some 1496, none⟩), (⟨some 16, .R, [.one 2, .one 4], [.many 2]⟩, ⟨some 1497, none⟩), (⟨some 16, .R,
  [.many 2, .one 4], []⟩, ⟨some 1498, none⟩), (⟨some 15, .L, [.many 2, .one 4], []⟩, ⟨some 1499, none⟩), (⟨some 15, .L,
  [.one 4], [.many 2]⟩, ⟨some 1500, none⟩), (⟨some 8, .R, [.one 3], [.many 2]⟩, ⟨some 1501, none⟩), (⟨some 8, .R, [.many 3],
  []⟩, ⟨some 1502, none⟩), (⟨some 9, .L, [.many 3], []⟩, ⟨some 1503, none⟩), (⟨some 10, .L, [.many 3], [.one 1]⟩, ⟨some 1504,
  none⟩), (⟨some 11, .L, [.many 3], [.many 1]⟩, ⟨some 1505, none⟩), (⟨some 12, .R, [.one 1, .many 3], [.many 1]⟩, ⟨some 1506,
  none⟩), (⟨some 12, .R, [.many 1, .many 3], []⟩, ⟨some 1538, some 12⟩), (⟨some 13, .L, [.many 1, .many 3], []⟩, ⟨some 1539,
  some 12⟩), (⟨some 14, .L, [.many 1, .many 3], [.one 2]⟩, ⟨some 1540, some 12⟩), (⟨some 16, .R, [.many 2, .many 3], []⟩,
  ⟨some 1544, some 10⟩), (⟨some 15, .L, [.many 2, .many 3], []⟩, ⟨some 1545, some 10⟩), (⟨some 15, .L, [.many 3], [.many 2]⟩,
  ⟨some 1546, some 10⟩), (⟨some 12, .R, [.one 1, .many 3], [.many 2]⟩, ⟨some 1537, some 12⟩), (⟨some 12, .R, [.one 1, .one 3],
  [.many 2]⟩, ⟨some 1547, none⟩), (⟨some 12, .R, [.many 1, .one 3], []⟩, ⟨some 1548, none⟩), (⟨some 13, .L, [.many 1, .one 3],
  []⟩, ⟨some 1549, none⟩), (⟨some 14, .L, [.many 1, .one 3], [.one 2]⟩, ⟨some 1550, none⟩), (⟨some 15, .L, [.one 1, .one 3],
  [.many 2]⟩, ⟨some 1552, none⟩), (⟨some 16, .R, [.one 2, .one 3], [.many 2]⟩, ⟨some 1553, none⟩), (⟨some 16, .R, [.many 2,
  .one 3], []⟩, ⟨some 1554, none⟩), (⟨some 15, .L, [.many 2, .one 3], []⟩, ⟨some 1555, none⟩), (⟨some 15, .L, [.one 3],
  [.many 2]⟩, ⟨some 1556, none⟩), (⟨some 12, .R, [.one 1], [.many 2]⟩, ⟨some 1557, none⟩), (⟨some 12, .R, [.many 1], []⟩,
  ⟨some 1558, none⟩), (⟨some 13, .L, [.many 1], []⟩, ⟨some 1559, none⟩), (⟨some 14, .L, [.many 1], [.one 2]⟩, ⟨some 1560,
  none⟩), (⟨some 15, .L, [.one 1], [.many 2]⟩, ⟨some 1562, none⟩), (⟨some 16, .R, [.one 2], [.many 2]⟩, ⟨some 1563, none⟩),
  (⟨some 16, .R, [.many 2], []⟩, ⟨some 1564, none⟩), (⟨some 15, .L, [.many 2], []⟩, ⟨some 1565, none⟩), (⟨some 15, .L, [],
  [.many 2]⟩, ⟨some 1566, none⟩), (⟨some 4, .R, [], [.many 2]⟩, ⟨some 1567, none⟩), (⟨some 0, .R, [.one 4], [.many 2]⟩,
  ⟨some 1568, none⟩), (⟨some 1, .R, [.many 4], [.many 2]⟩, ⟨some 1574, some 5⟩), (⟨some 2, .R, [.many 4], [.many 2]⟩,
  ⟨some 1575, some 5⟩), (⟨some 3, .R, [.many 4], [.many 2]⟩, ⟨some 1576, some 5⟩), (⟨some 4, .R, [.many 4], [.many 2]⟩,
  ⟨some 1577, some 5⟩), (⟨some 0, .R, [.many 4], [.many 2]⟩, ⟨some 1578, some 5⟩), (⟨some 4, .R, [.many 4], [.one 2]⟩,
  ⟨some 1582, none⟩), (⟨some 0, .R, [.many 4], []⟩, ⟨some 1583, none⟩), (⟨some 5, .R, [.one 3, .many 4], []⟩, ⟨some 1584,
  none⟩), (⟨some 6, .R, [.many 3, .many 4], []⟩, ⟨some 1585, none⟩), (⟨some 7, .R, [.many 3, .many 4], []⟩, ⟨some 1586, none⟩),
  (⟨some 8, .R, [.many 3, .many 4], []⟩, ⟨some 1734, some 45⟩), (⟨some 9, .L, [.many 3, .many 4], []⟩, ⟨some 1735, some 45⟩),
  (⟨some 10, .L, [.many 3, .many 4], [.one 1]⟩, ⟨some 1736, some 45⟩), (⟨some 11, .L, [.many 3, .many 4], [.many 1]⟩,
  ⟨some 1737, some 45⟩), (⟨some 12, .R, [.one 1, .one 3, .many 4], [.many 1]⟩, ⟨some 1591, none⟩), (⟨some 12, .R, [.many 1,
  .one 3, .many 4], []⟩, ⟨some 1669, some 44⟩), (⟨some 13, .L, [.many 1, .one 3, .many 4], []⟩, ⟨some 1670, some 44⟩),
  (⟨some 14, .L, [.many 1, .one 3, .many 4], [.one 2]⟩, ⟨some 1671, some 44⟩), (⟨some 15, .L, [.one 1, .one 3, .many 4],
  [.many 2]⟩, ⟨some 1673, some 44⟩), (⟨some 16, .R, [.one 2, .one 3, .many 4], [.many 2]⟩, ⟨some 1674, some 44⟩), (⟨some 15,
  .L, [.many 2, .one 3, .many 4], []⟩, ⟨some 1721, some 45⟩), (⟨some 15, .L, [.one 3, .many 4], [.many 2]⟩, ⟨some 1722,
  some 45⟩), (⟨some 12, .R, [.one 1, .many 4], [.many 2]⟩, ⟨some 1723, some 45⟩), (⟨some 12, .R, [.many 1, .many 4], []⟩,
  ⟨some 1724, some 45⟩), (⟨some 13, .L, [.many 1, .many 4], []⟩, ⟨some 1725, some 45⟩), (⟨some 14, .L, [.many 1, .many 4],
  [.one 2]⟩, ⟨some 1726, some 45⟩), (⟨some 15, .L, [.one 1, .many 4], [.many 2]⟩, ⟨some 1728, some 45⟩), (⟨some 16, .R,
  [.one 2, .many 4], [.many 2]⟩, ⟨some 1729, some 45⟩), (⟨some 16, .R, [.many 2, .many 4], []⟩, ⟨some 1730, some 45⟩),
  (⟨some 15, .L, [.many 2, .many 4], []⟩, ⟨some 1731, some 45⟩), (⟨some 15, .L, [.many 4], [.many 2]⟩, ⟨some 1732, some 45⟩),
  (⟨some 8, .R, [.one 3, .many 4], [.many 2]⟩, ⟨some 1733, some 45⟩), (⟨some 12, .R, [.one 1, .many 3, .many 4], [.many 1]⟩,
  ⟨some 1738, some 45⟩), (⟨some 12, .R, [.many 1, .many 3, .many 4], []⟩, ⟨some 1793, some 9⟩), (⟨some 13, .L, [.many 1,
  .many 3, .many 4], []⟩, ⟨some 1794, some 9⟩), (⟨some 14, .L, [.many 1, .many 3, .many 4], [.one 2]⟩, ⟨some 1795, some 9⟩),
  (⟨some 12, .R, [.one 1, .one 3, .many 4], [.many 2]⟩, ⟨some 1668, some 44⟩), (⟨some 12, .R, [.one 1, .many 3, .many 4],
  [.many 2]⟩, ⟨some 1792, some 35⟩)], [(⟨some 15, .L, [.many 1, .many 4], [.many 2]⟩, .diff ⟨⟨.L, [⟨1, some (.expr ⟨[⟨[⟨0, 1⟩],
  1⟩], 2⟩)⟩, ⟨4, some (.expr ⟨[⟨[⟨1, 1⟩], 1⟩], 1⟩)⟩, ⟨0, none⟩], [⟨2, some (.expr ⟨[⟨[⟨2, 1⟩], 1⟩], 1⟩)⟩, ⟨0, none⟩]⟩, ⟨.L,
  [⟨1, some (.num (-1))⟩, ⟨4, some (.num 0)⟩, ⟨0, none⟩], [⟨2, some (.num 1)⟩, ⟨0, none⟩]⟩, .expr ⟨[⟨[⟨2, 1⟩], 2⟩], 5⟩, [15,
  16], false⟩), (⟨some 15, .L, [.many 1, .one 3, .one 4], [.many 2]⟩, .diff ⟨⟨.L, [⟨1, some (.expr ⟨[⟨[⟨4, 1⟩], 1⟩], 2⟩)⟩, ⟨3,
  some (.num 1)⟩, ⟨4, some (.num 1)⟩, ⟨0, none⟩], [⟨2, some (.expr ⟨[⟨[⟨5, 1⟩], 1⟩], 1⟩)⟩, ⟨0, none⟩]⟩, ⟨.L, [⟨1,
  some (.num (-1))⟩, ⟨3, some (.num 0)⟩, ⟨4, some (.num 0)⟩, ⟨0, none⟩], [⟨2, some (.num 1)⟩, ⟨0, none⟩]⟩, .expr ⟨[⟨[⟨5, 1⟩],
  2⟩], 5⟩, [15, 16], false⟩), (⟨some 15, .L, [.many 1, .one 4], [.many 2]⟩, .diff ⟨⟨.L, [⟨1, some (.expr ⟨[⟨[⟨7, 1⟩], 1⟩],
  2⟩)⟩, ⟨4, some (.num 1)⟩, ⟨0, none⟩], [⟨2, some (.expr ⟨[⟨[⟨8, 1⟩], 1⟩], 1⟩)⟩, ⟨0, none⟩]⟩, ⟨.L, [⟨1, some (.num (-1))⟩, ⟨4,
  some (.num 0)⟩, ⟨0, none⟩], [⟨2, some (.num 1)⟩, ⟨0, none⟩]⟩, .expr ⟨[⟨[⟨8, 1⟩], 2⟩], 5⟩, [15, 16], false⟩), (⟨some 15, .L,
  [.many 1, .many 3], [.many 2]⟩, .diff ⟨⟨.L, [⟨1, some (.expr ⟨[⟨[⟨10, 1⟩], 1⟩], 2⟩)⟩, ⟨3, some (.expr ⟨[⟨[⟨11, 1⟩], 1⟩],
  1⟩)⟩, ⟨0, none⟩], [⟨2, some (.expr ⟨[⟨[⟨12, 1⟩], 1⟩], 1⟩)⟩, ⟨0, none⟩]⟩, ⟨.L, [⟨1, some (.num (-1))⟩, ⟨3, some (.num 0)⟩, ⟨0,
  none⟩], [⟨2, some (.num 1)⟩, ⟨0, none⟩]⟩, .expr ⟨[⟨[⟨12, 1⟩], 2⟩], 5⟩, [15, 16], false⟩), (⟨some 15, .L, [.many 1, .one 3],
  [.many 2]⟩, .diff ⟨⟨.L, [⟨1, some (.expr ⟨[⟨[⟨14, 1⟩], 1⟩], 2⟩)⟩, ⟨3, some (.num 1)⟩, ⟨0, none⟩], [⟨2, some (.expr ⟨[⟨[⟨15,
  1⟩], 1⟩], 1⟩)⟩, ⟨0, none⟩]⟩, ⟨.L, [⟨1, some (.num (-1))⟩, ⟨3, some (.num 0)⟩, ⟨0, none⟩], [⟨2, some (.num 1)⟩, ⟨0, none⟩]⟩,
  .expr ⟨[⟨[⟨15, 1⟩], 2⟩], 5⟩, [15, 16], false⟩), (⟨some 15, .L, [.many 1], [.many 2]⟩, .diff ⟨⟨.L, [⟨1, some (.expr ⟨[⟨[⟨17,
  1⟩], 1⟩], 2⟩)⟩, ⟨0, none⟩], [⟨2, some (.expr ⟨[⟨[⟨18, 1⟩], 1⟩], 1⟩)⟩, ⟨0, none⟩]⟩, ⟨.L, [⟨1, some (.num (-1))⟩, ⟨0, none⟩],
  [⟨2, some (.num 1)⟩, ⟨0, none⟩]⟩, .expr ⟨[⟨[⟨18, 1⟩], 2⟩], 5⟩, [15, 16], false⟩), (⟨some 15, .L, [.many 1, .one 3, .many 4],
  [.many 2]⟩, .diff ⟨⟨.L, [⟨1, some (.expr ⟨[⟨[⟨23, 1⟩], 1⟩], 2⟩)⟩, ⟨3, some (.num 1)⟩, ⟨4, some (.expr ⟨[⟨[⟨24, 1⟩], 1⟩],
  1⟩)⟩, ⟨0, none⟩], [⟨2, some (.expr ⟨[⟨[⟨25, 1⟩], 1⟩], 1⟩)⟩, ⟨0, none⟩]⟩, ⟨.L, [⟨1, some (.num (-1))⟩, ⟨3, some (.num 0)⟩, ⟨4,
  some (.num 0)⟩, ⟨0, none⟩], [⟨2, some (.num 1)⟩, ⟨0, none⟩]⟩, .expr ⟨[⟨[⟨25, 1⟩], 2⟩], 5⟩, [15, 16], false⟩), (⟨some 15, .L,
  [.many 1, .many 3, .many 4], [.many 2]⟩, .diff ⟨⟨.L, [⟨1, some (.expr ⟨[⟨[⟨28, 1⟩], 1⟩], 2⟩)⟩, ⟨3, some (.expr ⟨[⟨[⟨29, 1⟩],
  1⟩], 1⟩)⟩, ⟨4, some (.expr ⟨[⟨[⟨30, 1⟩], 1⟩], 1⟩)⟩, ⟨0, none⟩], [⟨2, some (.expr ⟨[⟨[⟨31, 1⟩], 1⟩], 1⟩)⟩, ⟨0, none⟩]⟩, ⟨.L,
  [⟨1, some (.num (-1))⟩, ⟨3, some (.num 0)⟩, ⟨4, some (.num 0)⟩, ⟨0, none⟩], [⟨2, some (.num 1)⟩, ⟨0, none⟩]⟩, .expr ⟨[⟨[⟨31,
  1⟩], 2⟩], 5⟩, [15, 16], false⟩), (⟨some 15, .L, [.one 1, .many 3, .many 4], [.many 2]⟩, .diff ⟨⟨.L, [⟨1, some (.num 1)⟩, ⟨3,
  some (.expr ⟨[⟨[⟨37, 1⟩], 1⟩], 4⟩)⟩, ⟨4, some (.expr ⟨[⟨[⟨38, 1⟩], 1⟩], 3⟩)⟩, ⟨0, none⟩], [⟨2, some (.expr ⟨[⟨[⟨39, 1⟩], 1⟩],
  4⟩)⟩, ⟨0, none⟩]⟩, ⟨.L, [⟨1, some (.num 0)⟩, ⟨3, some (.num (-1))⟩, ⟨4, some (.num 0)⟩, ⟨0, none⟩], [⟨2, some (.num 1)⟩, ⟨0,
  none⟩]⟩, .expr ⟨[⟨[⟨39, 1⟩], 15⟩, ⟨[⟨39, 2⟩], 1⟩], 47⟩, [15, 16, 12, 13, 14], true⟩), (⟨some 16, .R, [.one 2, .many 3,
  .many 4], [.many 2]⟩, .diff ⟨⟨.R, [⟨2, some (.num 1)⟩, ⟨3, some (.expr ⟨[⟨[⟨52, 1⟩], 1⟩], 5⟩)⟩, ⟨4, some (.expr ⟨[⟨[⟨53, 1⟩],
  1⟩], 2⟩)⟩, ⟨0, none⟩], [⟨2, some (.expr ⟨[⟨[⟨54, 1⟩], 1⟩], 4⟩)⟩, ⟨0, none⟩]⟩, ⟨.R, [⟨2, some (.num 0)⟩, ⟨3,
  some (.num (-1))⟩, ⟨4, some (.num 0)⟩, ⟨0, none⟩], [⟨2, some (.num 1)⟩, ⟨0, none⟩]⟩, .expr ⟨[⟨[⟨54, 1⟩], 15⟩, ⟨[⟨54, 2⟩],
  1⟩], 47⟩, [16, 15, 12, 13, 14], true⟩), (⟨some 16, .R, [.many 2, .many 3, .many 4], []⟩, .diff ⟨⟨.R, [⟨2,
  some (.expr ⟨[⟨[⟨65, 1⟩], 1⟩], 8⟩)⟩, ⟨3, some (.expr ⟨[⟨[⟨66, 1⟩], 1⟩], 2⟩)⟩, ⟨4, some (.expr ⟨[⟨[⟨67, 1⟩], 1⟩], 2⟩)⟩, ⟨0,
  none⟩], [⟨0, none⟩]⟩, ⟨.R, [⟨2, some (.num 1)⟩, ⟨3, some (.num (-1))⟩, ⟨4, some (.num 0)⟩, ⟨0, none⟩], [⟨0, none⟩]⟩,
  .expr ⟨[⟨[⟨65, 1⟩], 21⟩, ⟨[⟨65, 2⟩], 1⟩], 102⟩, [16, 15, 12, 13, 14], true⟩), (⟨some 15, .L, [.many 1, .many 3, .one 4],
  [.many 2]⟩, .diff ⟨⟨.L, [⟨1, some (.expr ⟨[⟨[⟨73, 1⟩], 1⟩], 2⟩)⟩, ⟨3, some (.expr ⟨[⟨[⟨74, 1⟩], 1⟩], 1⟩)⟩, ⟨4,
  some (.num 1)⟩, ⟨0, none⟩], [⟨2, some (.expr ⟨[⟨[⟨75, 1⟩], 1⟩], 1⟩)⟩, ⟨0, none⟩]⟩, ⟨.L, [⟨1, some (.num (-1))⟩, ⟨3,
  some (.num 0)⟩, ⟨4, some (.num 0)⟩, ⟨0, none⟩], [⟨2, some (.num 1)⟩, ⟨0, none⟩]⟩, .expr ⟨[⟨[⟨75, 1⟩], 2⟩], 5⟩, [15, 16],
  false⟩), (⟨some 15, .L, [.one 1, .many 3, .one 4], [.many 2]⟩, .diff ⟨⟨.L, [⟨1, some (.num 1)⟩, ⟨3, some (.expr ⟨[⟨[⟨79, 1⟩],
  1⟩], 3⟩)⟩, ⟨4, some (.num 1)⟩, ⟨0, none⟩], [⟨2, some (.expr ⟨[⟨[⟨80, 1⟩], 1⟩], 7⟩)⟩, ⟨0, none⟩]⟩, ⟨.L, [⟨1, some (.num 0)⟩,
  ⟨3, some (.num (-1))⟩, ⟨4, some (.num 0)⟩, ⟨0, none⟩], [⟨2, some (.num 1)⟩, ⟨0, none⟩]⟩, .expr ⟨[⟨[⟨80, 1⟩], 21⟩, ⟨[⟨80, 2⟩],
  1⟩], 101⟩, [15, 16, 12, 13, 14], true⟩), (⟨some 15, .L, [.one 1, .many 3], [.many 2]⟩, .diff ⟨⟨.L, [⟨1, some (.num 1)⟩, ⟨3,
  some (.expr ⟨[⟨[⟨88, 1⟩], 1⟩], 7⟩)⟩, ⟨0, none⟩], [⟨2, some (.expr ⟨[⟨[⟨89, 1⟩], 1⟩], 4⟩)⟩, ⟨0, none⟩]⟩, ⟨.L, [⟨1,
  some (.num 0)⟩, ⟨3, some (.num (-1))⟩, ⟨0, none⟩], [⟨2, some (.num 1)⟩, ⟨0, none⟩]⟩, .expr ⟨[⟨[⟨89, 1⟩], 15⟩, ⟨[⟨89, 2⟩],
  1⟩], 47⟩, [15, 16, 12, 13, 14], true⟩), (⟨some 16, .R, [.one 2, .many 3], [.many 2]⟩, .diff ⟨⟨.R, [⟨2, some (.num 1)⟩, ⟨3,
  some (.expr ⟨[⟨[⟨97, 1⟩], 1⟩], 4⟩)⟩, ⟨0, none⟩], [⟨2, some (.expr ⟨[⟨[⟨98, 1⟩], 1⟩], 7⟩)⟩, ⟨0, none⟩]⟩, ⟨.R, [⟨2,
  some (.num 0)⟩, ⟨3, some (.num (-1))⟩, ⟨0, none⟩], [⟨2, some (.num 1)⟩, ⟨0, none⟩]⟩, .expr ⟨[⟨[⟨98, 1⟩], 21⟩, ⟨[⟨98, 2⟩],
  1⟩], 101⟩, [16, 15, 12, 13, 14], true⟩), (⟨some 15, .L, [.many 2, .many 3, .many 4], []⟩, .diff ⟨⟨.L, [⟨2,
  some (.expr ⟨[⟨[⟨134, 1⟩], 1⟩], 5⟩)⟩, ⟨3, some (.expr ⟨[⟨[⟨135, 1⟩], 1⟩], 2⟩)⟩, ⟨4, some (.expr ⟨[⟨[⟨136, 1⟩], 1⟩], 9⟩)⟩, ⟨0,
  none⟩], [⟨0, none⟩]⟩, ⟨.L, [⟨2, some (.num 1)⟩, ⟨3, some (.num (-1))⟩, ⟨4, some (.num 0)⟩, ⟨0, none⟩], [⟨0, none⟩]⟩,
  .expr ⟨[⟨[⟨134, 1⟩], 15⟩, ⟨[⟨134, 2⟩], 1⟩], 48⟩, [15, 12, 13, 14, 16], true⟩), (⟨some 15, .L, [.many 3, .many 4], [.many 2]⟩,
  .diff ⟨⟨.L, [⟨3, some (.expr ⟨[⟨[⟨157, 1⟩], 1⟩], 3⟩)⟩, ⟨4, some (.expr ⟨[⟨[⟨158, 1⟩], 1⟩], 8⟩)⟩, ⟨0, none⟩], [⟨2,
  some (.expr ⟨[⟨[⟨159, 1⟩], 1⟩], 5⟩)⟩, ⟨0, none⟩]⟩, ⟨.L, [⟨3, some (.num (-1))⟩, ⟨4, some (.num 0)⟩, ⟨0, none⟩], [⟨2,
  some (.num 1)⟩, ⟨0, none⟩]⟩, .expr ⟨[⟨[⟨159, 1⟩], 15⟩, ⟨[⟨159, 2⟩], 1⟩], 49⟩, [15, 12, 13, 14, 16], true⟩), (⟨some 16, .R,
  [.many 2, .one 3, .many 4], []⟩, .diff ⟨⟨.R, [⟨2, some (.expr ⟨[⟨[⟨251, 1⟩], 1⟩], 11⟩)⟩, ⟨3, some (.num 1)⟩, ⟨4,
  some (.expr ⟨[⟨[⟨252, 1⟩], 1⟩], 4⟩)⟩, ⟨0, none⟩], [⟨0, none⟩]⟩, ⟨.R, [⟨2, some (.num 1)⟩, ⟨3, some (.num 0)⟩, ⟨4,
  some (.num (-1))⟩, ⟨0, none⟩], [⟨0, none⟩]⟩, .expr ⟨[⟨[⟨251, 1⟩], (650 : Rat)/3⟩, ⟨[⟨251, 2⟩], 15⟩, ⟨[⟨251, 3⟩],
  (1 : Rat)/3⟩], 1010⟩, [16, 15, 12, 13, 14, 8, 9, 10, 11], true⟩), (⟨some 16, .R, [.one 2, .many 3, .one 4], [.many 2]⟩,
  .diff ⟨⟨.R, [⟨2, some (.num 1)⟩, ⟨3, some (.expr ⟨[⟨[⟨296, 1⟩], 1⟩], 10⟩)⟩, ⟨4, some (.num 1)⟩, ⟨0, none⟩], [⟨2,
  some (.expr ⟨[⟨[⟨297, 1⟩], 1⟩], 4⟩)⟩, ⟨0, none⟩]⟩, ⟨.R, [⟨2, some (.num 0)⟩, ⟨3, some (.num (-1))⟩, ⟨4, some (.num 0)⟩, ⟨0,
  none⟩], [⟨2, some (.num 1)⟩, ⟨0, none⟩]⟩, .expr ⟨[⟨[⟨297, 1⟩], 15⟩, ⟨[⟨297, 2⟩], 1⟩], 47⟩, [16, 15, 12, 13, 14], true⟩)]⟩

/-- after 1980 loops -/
def c57At1980 : Recursive.Base Nat (Option Nat) :=
  ⟨⟨⟨⟨.L, [⟨1, some (.num 3)⟩, ⟨3, some (.num 14)⟩, ⟨4, some (.num 2)⟩, ⟨0, none⟩], [⟨2, some (.num 1)⟩, ⟨0, none⟩]⟩, some 14,
  .L, .num 4252, 1980, [(0, .num 3432), (5, .num 3433), (6, .num 3434), (7, .num 3435), (8, .num 4230), (9, .num 4231), (10,
  .num 4232), (11, .num 4233), (12, .num 4250), (13, .num 4251), (14, .num 4238), (15, .num 4246), (16, .num 4242), (4,
  .num 3431), (1, .num 3428), (2, .num 3429), (3, .num 3430)], .running, none, none, []⟩, .num 19463, 135, 808⟩, [(⟨some 16,
  .R, [.one 2, .many 3, .one 4], [.many 2]⟩, ⟨none, some 10⟩), (⟨some 16, .R, [.many 2, .many 3, .one 4], []⟩, ⟨some 1478,
  some 11⟩), (⟨some 15, .L, [.many 2, .many 3, .one 4], []⟩, ⟨some 1479, some 11⟩), (⟨some 15, .L, [.many 3, .one 4],
  [.many 2]⟩, ⟨some 1480, some 11⟩), (⟨some 12, .R, [.one 1, .many 3, .one 4], [.many 2]⟩, ⟨some 1470, some 10⟩), (⟨some 12,
  .R, [.many 1, .many 3, .one 4], []⟩, ⟨some 1471, some 10⟩), (⟨some 13, .L, [.many 1, .many 3, .one 4], []⟩, ⟨some 1472,
  some 10⟩), (⟨some 14, .L, [.many 1, .many 3, .one 4], [.one 2]⟩, ⟨some 1473, some 10⟩), (⟨some 12, .R, [.one 1, .one 3,
  .one 4], [.many 2]⟩, ⟨some 1481, none⟩), (⟨some 12, .R, [.many 1, .one 3, .one 4], []⟩, ⟨some 1482, none⟩), (⟨some 13, .L,
  [.many 1, .one 3, .one 4], []⟩, ⟨some 1483, none⟩), (⟨some 14, .L, [.many 1, .one 3, .one 4], [.one 2]⟩, ⟨some 1484, none⟩),
  (⟨some 15, .L, [.one 1, .one 3, .one 4], [.many 2]⟩, ⟨some 1486, none⟩), (⟨some 16, .R, [.one 2, .one 3, .one 4], [.many 2]⟩,
  ⟨some 1487, none⟩), (⟨some 16, .R, [.many 2, .one 3, .one 4], []⟩, ⟨some 1488, none⟩), (⟨some 15, .L, [.many 2, .one 3,
  .one 4], []⟩, ⟨some 1489, none⟩), (⟨some 15, .L, [.one 3, .one 4], [.many 2]⟩, ⟨some 1490, none⟩), (⟨some 12, .R, [.one 1,
  .one 4], [.many 2]⟩, ⟨some 1491, none⟩), (⟨some 12, .R, [.many 1, .one 4], []⟩, ⟨some 1492, none⟩), (⟨some 13, .L, [.many 1,
  .one 4], []⟩, ⟨some 1493, none⟩), (⟨some 14, .L, [.many 1, .one 4], [.one 2]⟩, ⟨some 1494, none⟩), (⟨some 15, .L, [.one 1,
  .one 4], [.many 2]⟩, ⟨some 1496, none⟩), (⟨some 16, .R, [.one 2, .one 4], [.many 2]⟩, ⟨some 1497, none⟩), (⟨some 16, .R,
  [.many 2, .one 4], []⟩, ⟨some 1498, none⟩), (⟨some 15, .L, [.many 2, .one 4], []⟩, ⟨some 1499, none⟩), (⟨some 15, .L,
  [.one 4], [.many 2]⟩, ⟨some 1500, none⟩), (⟨some 8, .R, [.one 3], [.many 2]⟩, ⟨some 1501, none⟩), (⟨some 8, .R, [.many 3],
  []⟩, ⟨some 1502, none⟩), (⟨some 9, .L, [.many 3], []⟩, ⟨some 1503, none⟩), (⟨some 10, .L, [.many 3], [.one 1]⟩, ⟨some 1504,
  none⟩), (⟨some 11, .L, [.many 3], [.many 1]⟩, ⟨some 1505, none⟩), (⟨some 12, .R, [.one 1, .many 3], [.many 1]⟩, ⟨some 1506,
  none⟩), (⟨some 12, .R, [.many 1, .many 3], []⟩, ⟨some 1538, some 12⟩), (⟨some 13, .L, [.many 1, .many 3], []⟩, ⟨some 1539,
  some 12⟩), (⟨some 14, .L, [.many 1, .many 3], [.one 2]⟩, ⟨some 1540, some 12⟩), (⟨some 16, .R, [.many 2, .many 3], []⟩,
  ⟨some 1544, some 10⟩), (⟨some 15, .L, [.many 2, .many 3], []⟩, ⟨some 1545, some 10⟩), (⟨some 15, .L, [.many 3], [.many 2]⟩,
  ⟨some 1546, some 10⟩), (⟨some 12, .R, [.one 1, .many 3], [.many 2]⟩, ⟨some 1537, some 12⟩), (⟨some 12, .R, [.one 1, .one 3],
  [.many 2]⟩, ⟨some 1547, none⟩), (⟨some 12, .R, [.many 1, .one 3], []⟩, ⟨some 1548, none⟩), (⟨some 13, .L, [.many 1, .one 3],
  []⟩, ⟨some 1549, none⟩), (⟨some 14, .L, [.many 1, .one 3], [.one 2]⟩, ⟨some 1550, none⟩), (⟨some 15, .L, [.one 1, .one 3],
  [.many 2]⟩, ⟨some 1552, none⟩), (⟨some 16, .R, [.one 2, .one 3], [.many 2]⟩, ⟨some 1553, none⟩), (⟨some 16, .R, [.many 2,
  .one 3], []⟩, ⟨some 1554, none⟩), (⟨some 15, .L, [.many 2, .one 3], []⟩, ⟨some 1555, none⟩), (⟨some 15, .L, [.one 3],
  [.many 2]⟩, ⟨some 1556, none⟩), (⟨some 12, .R, [.one 1], [.many 2]⟩, ⟨some 1557, none⟩), (⟨some 12, .R, [.many 1], []⟩,
  ⟨some 1558, none⟩), (⟨some 13, .L, [.many 1], []⟩, ⟨some 1559, none⟩), (⟨some 14, .L, [.many 1], [.one 2]⟩, ⟨some 1560,
  none⟩), (⟨some 15, .L, [.one 1], [.many 2]⟩, ⟨some 1562, none⟩), (⟨some 16, .R, [.one 2], [.many 2]⟩, ⟨some 1563, none⟩),
  (⟨some 16, .R, [.many 2], []⟩, ⟨some 1564, none⟩), (⟨some 15, .L, [.many 2], []⟩, ⟨some 1565, none⟩), (⟨some 15, .L, [],
  [.many 2]⟩, ⟨some 1566, none⟩), (⟨some 4, .R, [], [.many 2]⟩, ⟨some 1567, none⟩), (⟨some 0, .R, [.one 4], [.many 2]⟩,
  ⟨some 1568, none⟩), (⟨some 1, .R, [.many 4], [.many 2]⟩, ⟨some 1574, some 5⟩), (⟨some 2, .R, [.many 4], [.many 2]⟩,
  ⟨some 1575, some 5⟩), (⟨some 3, .R, [.many 4], [.many 2]⟩, ⟨some 1576, some 5⟩), (⟨some 4, .R, [.many 4], [.many 2]⟩,
  ⟨some 1577, some 5⟩), (⟨some 0, .R, [.many 4], [.many 2]⟩, ⟨some 1578, some 5⟩), (⟨some 4, .R, [.many 4], [.one 2]⟩,
  ⟨some 1582, none⟩), (⟨some 0, .R, [.many 4], []⟩, ⟨some 1583, none⟩), (⟨some 5, .R, [.one 3, .many 4], []⟩, ⟨some 1584,
  none⟩), (⟨some 6, .R, [.many 3, .many 4], []⟩, ⟨some 1585, none⟩), (⟨some 7, .R, [.many 3, .many 4], []⟩, ⟨some 1586, none⟩),
  (⟨some 8, .R, [.many 3, .many 4], []⟩, ⟨some 1964, some 93⟩), (⟨some 9, .L, [.many 3, .many 4], []⟩, ⟨some 1965, some 93⟩),
  (⟨some 10, .L, [.many 3, .many 4], [.one 1]⟩, ⟨some 1966, some 93⟩), (⟨some 11, .L, [.many 3, .many 4], [.many 1]⟩,
  ⟨some 1967, some 93⟩), (⟨some 12, .R, [.one 1, .one 3, .many 4], [.many 1]⟩, ⟨some 1591, none⟩), (⟨some 12, .R, [.many 1,
  .one 3, .many 4], []⟩, ⟨some 1669, some 44⟩), (⟨some 13, .L, [.many 1, .one 3, .many 4], []⟩, ⟨some 1670, some 44⟩),
  (⟨some 14, .L, [.many 1, .one 3, .many 4], [.one 2]⟩, ⟨some 1671, some 44⟩), (⟨some 15, .L, [.one 1, .one 3, .many 4],
  [.many 2]⟩, ⟨some 1673, some 44⟩), (⟨some 16, .R, [.one 2, .one 3, .many 4], [.many 2]⟩, ⟨some 1674, some 44⟩), (⟨some 15,
  .L, [.many 2, .one 3, .many 4], []⟩, ⟨some 1951, some 93⟩), (⟨some 15, .L, [.one 3, .many 4], [.many 2]⟩, ⟨some 1952,
  some 93⟩), (⟨some 12, .R, [.one 1, .many 4], [.many 2]⟩, ⟨some 1953, some 93⟩), (⟨some 12, .R, [.many 1, .many 4], []⟩,
  ⟨some 1954, some 93⟩), (⟨some 13, .L, [.many 1, .many 4], []⟩, ⟨some 1955, some 93⟩), (⟨some 14, .L, [.many 1, .many 4],
  [.one 2]⟩, ⟨some 1956, some 93⟩), (⟨some 15, .L, [.one 1, .many 4], [.many 2]⟩, ⟨some 1958, some 93⟩), (⟨some 16, .R,
  [.one 2, .many 4], [.many 2]⟩, ⟨some 1959, some 93⟩), (⟨some 16, .R, [.many 2, .many 4], []⟩, ⟨some 1960, some 93⟩),
  (⟨some 15, .L, [.many 2, .many 4], []⟩, ⟨some 1961, some 93⟩), (⟨some 15, .L, [.many 4], [.many 2]⟩, ⟨some 1962, some 93⟩),
  (⟨some 8, .R, [.one 3, .many 4], [.many 2]⟩, ⟨some 1963, some 93⟩), (⟨some 12, .R, [.one 1, .many 3, .many 4], [.many 1]⟩,
  ⟨some 1968, some 93⟩), (⟨some 12, .R, [.many 1, .many 3, .many 4], []⟩, ⟨some 1978, some 9⟩), (⟨some 13, .L, [.many 1,
  .many 3, .many 4], []⟩, ⟨some 1979, some 9⟩), (⟨some 14, .L, [.many 1, .many 3, .many 4], [.one 2]⟩, ⟨some 1971, some 28⟩),
  (⟨some 12, .R, [.one 1, .one 3, .many 4], [.many 2]⟩, ⟨some 1668, some 44⟩), (⟨some 12, .R, [.one 1, .many 3, .many 4],
  [.many 2]⟩, ⟨some 1977, some 37⟩)], [(⟨some 15, .L, [.many 1, .many 4], [.many 2]⟩, .diff ⟨⟨.L, [⟨1, some (.expr ⟨[⟨[⟨0, 1⟩],
  1⟩], 2⟩)⟩, ⟨4, some (.expr ⟨[⟨[⟨1, 1⟩], 1⟩], 1⟩)⟩, ⟨0, none⟩], [⟨2, some (.expr ⟨[⟨[⟨2, 1⟩], 1⟩], 1⟩)⟩, ⟨0, none⟩]⟩, ⟨.L,
  [⟨1, some (.num (-1))⟩, ⟨4, some (.num 0)⟩, ⟨0, none⟩], [⟨2, some (.num 1)⟩, ⟨0, none⟩]⟩, .expr ⟨[⟨[⟨2, 1⟩], 2⟩], 5⟩, [15,
  16], false⟩), (⟨some 15, .L, [.many 1, .one 3, .one 4], [.many 2]⟩, .diff ⟨⟨.L, [⟨1, some (.expr ⟨[⟨[⟨4, 1⟩], 1⟩], 2⟩)⟩, ⟨3,
  some (.num 1)⟩, ⟨4, some (.num 1)⟩, ⟨0, none⟩], [⟨2, some (.expr ⟨[⟨[⟨5, 1⟩], 1⟩], 1⟩)⟩, ⟨0, none⟩]⟩, ⟨.L, [⟨1,
  some (.num (-1))⟩, ⟨3, some (.num 0)⟩, ⟨4, some (.num 0)⟩, ⟨0, none⟩], [⟨2, some (.num 1)⟩, ⟨0, none⟩]⟩, .expr ⟨[⟨[⟨5, 1⟩],
  2⟩], 5⟩, [15, 16], false⟩), (⟨some 15, .L, [.many 1, .one 4], [.many 2]⟩, .diff ⟨⟨.L, [⟨1, some (.expr ⟨[⟨[⟨7, 1⟩], 1⟩],
  2⟩)⟩, ⟨4, some (.num 1)⟩, ⟨0, none⟩], [⟨2, some (.expr ⟨[⟨[⟨8, 1⟩], 1⟩], 1⟩)⟩, ⟨0, none⟩]⟩, ⟨.L, [⟨1, some (.num (-1))⟩, ⟨4,
  some (.num 0)⟩, ⟨0, none⟩], [⟨2, some (.num 1)⟩, ⟨0, none⟩]⟩, .expr ⟨[⟨[⟨8, 1⟩], 2⟩], 5⟩, [15, 16], false⟩), (⟨some 15, .L,
  [.many 1, .many 3], [.many 2]⟩, .diff ⟨⟨.L, [⟨1, some (.expr ⟨[⟨[⟨10, 1⟩], 1⟩], 2⟩)⟩, ⟨3, some (.expr ⟨[⟨[⟨11, 1⟩], 1⟩],
  1⟩)⟩, ⟨0, none⟩], [⟨2, some (.expr ⟨[⟨[⟨12, 1⟩], 1⟩], 1⟩)⟩, ⟨0, none⟩]⟩, ⟨.L, [⟨1, some (.num (-1))⟩, ⟨3, some (.num 0)⟩, ⟨0,
  none⟩], [⟨2, some (.num 1)⟩, ⟨0, none⟩]⟩, .expr ⟨[⟨[⟨12, 1⟩], 2⟩], 5⟩, [15, 16], false⟩), (⟨some 15, .L, [.many 1, .one 3],
  [.many 2]⟩, .diff ⟨⟨.L, [⟨1, some (.expr ⟨[⟨[⟨14, 1⟩], 1⟩], 2⟩)⟩, ⟨3, some (.num 1)⟩, ⟨0, none⟩], [⟨2, some (.expr ⟨[⟨[⟨15,
  1⟩], 1⟩], 1⟩)⟩, ⟨0, none⟩]⟩, ⟨.L, [⟨1, some (.num (-1))⟩, ⟨3, some (.num 0)⟩, ⟨0, none⟩], [⟨2, some (.num 1)⟩, ⟨0, none⟩]⟩,
  .expr ⟨[⟨[⟨15, 1⟩], 2⟩], 5⟩, [15, 16], false⟩), (⟨some 15, .L, [.many 1], [.many 2]⟩, .diff ⟨⟨.L, [⟨1, some (.expr ⟨[⟨[⟨17,
  1⟩], 1⟩], 2⟩)⟩, ⟨0, none⟩], [⟨2, some (.expr ⟨[⟨[⟨18, 1⟩], 1⟩], 1⟩)⟩, ⟨0, none⟩]⟩, ⟨.L, [⟨1, some (.num (-1))⟩, ⟨0, none⟩],
  [⟨2, some (.num 1)⟩, ⟨0, none⟩]⟩, .expr ⟨[⟨[⟨18, 1⟩], 2⟩], 5⟩, [15, 16], false⟩), (⟨some 15, .L, [.many 1, .one 3, .many 4],
  [.many 2]⟩, .diff ⟨⟨.L, [⟨1, some (.expr ⟨[⟨[⟨23, 1⟩], 1⟩], 2⟩)⟩, ⟨3, some (.num 1)⟩, ⟨4, some (.expr ⟨[⟨[⟨24, 1⟩], 1⟩],
  1⟩)⟩, ⟨0, none⟩], [⟨2, some (.expr ⟨[⟨[⟨25, 1⟩], 1⟩], 1⟩)⟩, ⟨0, none⟩]⟩, ⟨.L, [⟨1, some (.num (-1))⟩, ⟨3, some (.num 0)⟩, ⟨4,
  some (.num 0)⟩, ⟨0, none⟩], [⟨2, some (.num 1)⟩, ⟨0, none⟩]⟩, .expr ⟨[⟨[⟨25, 1⟩], 2⟩], 5⟩, [15, 16], false⟩), (⟨some 15, .L,
  [.many 1, .many 3, .many 4], [.many 2]⟩, .diff ⟨⟨.L, [⟨1, some (.expr ⟨[⟨[⟨28, 1⟩], 1⟩], 2⟩)⟩, ⟨3, some (.expr ⟨[⟨[⟨29, 1⟩],
  1⟩], 1⟩)⟩, ⟨4, some (.expr ⟨[⟨[⟨30, 1⟩], 1⟩], 1⟩)⟩, ⟨0, none⟩], [⟨2, some (.expr ⟨[⟨[⟨31, 1⟩], 1⟩], 1⟩)⟩, ⟨0, none⟩]⟩, ⟨.L,
  [⟨1, some (.num (-1))⟩, ⟨3, some (.num 0)⟩, ⟨4, some (.num 0)⟩, ⟨0, none⟩], [⟨2, some (.num 1)⟩, ⟨0, none⟩]⟩, .expr ⟨[⟨[⟨31,
  1⟩], 2⟩], 5⟩, [15, 16], false⟩), (⟨some 15, .L, [.one 1, .many 3, .many 4], [.many 2]⟩, .diff ⟨⟨.L, [⟨1, some (.num 1)⟩, ⟨3,
  some (.expr ⟨[⟨[⟨37, 1⟩], 1⟩], 4⟩)⟩, ⟨4, some (.expr ⟨[⟨[⟨38, 1⟩], 1⟩], 3⟩)⟩, ⟨0, none⟩], [⟨2, some (.expr ⟨[⟨[⟨39, 1⟩], 1⟩],
  4⟩)⟩, ⟨0, none⟩]⟩, ⟨.L, [⟨1, some (.num 0)⟩, ⟨3, some (.num (-1))⟩, ⟨4, some (.num 0)⟩, ⟨0, none⟩], [⟨2, some (.num 1)⟩, ⟨0,
  none⟩]⟩, .expr ⟨[⟨[⟨39, 1⟩], 15⟩, ⟨[⟨39, 2⟩], 1⟩], 47⟩, [15, 16, 12, 13, 14], true⟩), (⟨some 16, .R, [.one 2, .many 3,
  .many 4], [.many 2]⟩, .diff ⟨⟨.R, [⟨2, some (.num 1)⟩, ⟨3, some (.expr ⟨[⟨[⟨52, 1⟩], 1⟩], 5⟩)⟩, ⟨4, some (.expr ⟨[⟨[⟨53, 1⟩],
  1⟩], 2⟩)⟩, ⟨0, none⟩], [⟨2, some (.expr ⟨[⟨[⟨54, 1⟩], 1⟩], 4⟩)⟩, ⟨0, none⟩]⟩, ⟨.R, [⟨2, some (.num 0)⟩, ⟨3,
  some (.num (-1))⟩, ⟨4, some (.num 0)⟩, ⟨0, none⟩], [⟨2, some (.num 1)⟩, ⟨0, none⟩]⟩, .expr ⟨[⟨[⟨54, 1⟩], 15⟩, ⟨[⟨54, 2⟩],
  1⟩], 47⟩, [16, 15, 12, 13, 14], true⟩), (⟨some 16, .R, [.many 2, .many 3, .many 4], []⟩, .diff ⟨⟨.R, [⟨2,
  some (.expr ⟨[⟨[⟨65, 1⟩], 1⟩], 8⟩)⟩, ⟨3, some (.expr ⟨[⟨[⟨66, 1⟩], 1⟩], 2⟩)⟩, ⟨4, some (.expr ⟨[⟨[⟨67, 1⟩], 1⟩], 2⟩)⟩, ⟨0,
  none⟩], [⟨0, none⟩]⟩, ⟨.R, [⟨2, some (.num 1)⟩, ⟨3, some (.num (-1))⟩, ⟨4, some (.num 0)⟩, ⟨0, none⟩], [⟨0, none⟩]⟩,
  .expr ⟨[⟨[⟨65, 1⟩], 21⟩, ⟨[⟨65, 2⟩], 1⟩], 102⟩, [16, 15, 12, 13, 14], true⟩), (⟨some 15, .L, [.many 1, .many 3, .one 4],
  [.many 2]⟩, .diff ⟨⟨.L, [⟨1, some (.expr ⟨[⟨[⟨73, 1⟩], 1⟩], 2⟩)⟩, ⟨3, some (.expr ⟨[⟨[⟨74, 1⟩], 1⟩], 1⟩)⟩, ⟨4,
  some (.num 1)⟩, ⟨0, none⟩], [⟨2, some (.expr ⟨[⟨[⟨75, 1⟩], 1⟩], 1⟩)⟩, ⟨0, none⟩]⟩, ⟨.L, [⟨1, some (.num (-1))⟩, ⟨3,
  some (.num 0)⟩, ⟨4, some (.num 0)⟩, ⟨0, none⟩], [⟨2, some (.num 1)⟩, ⟨0, none⟩]⟩, .expr ⟨[⟨[⟨75, 1⟩], 2⟩], 5⟩, [15, 16],
  false⟩), (⟨some 15, .L, [.one 1, .many 3, .one 4], [.many 2]⟩, .diff ⟨⟨.L, [⟨1, some (.num 1)⟩, ⟨3, some (.expr ⟨[⟨[⟨79, 1⟩],
  1⟩], 3⟩)⟩, ⟨4, some (.num 1)⟩, ⟨0, none⟩], [⟨2, some (.expr ⟨[⟨[⟨80, 1⟩], 1⟩], 7⟩)⟩, ⟨0, none⟩]⟩, ⟨.L, [⟨1, some (.num 0)⟩,
  ⟨3, some (.num (-1))⟩, ⟨4, some (.num 0)⟩, ⟨0, none⟩], [⟨2, some (.num 1)⟩, ⟨0, none⟩]⟩, .expr ⟨[⟨[⟨80, 1⟩], 21⟩, ⟨[⟨80, 2⟩],
  1⟩], 101⟩, [15, 16, 12, 13, 14], true⟩), (⟨some 15, .L, [.one 1, .many 3], [.many 2]⟩, .diff ⟨⟨.L, [⟨1, some (.num 1)⟩, ⟨3,
  some (.expr ⟨[⟨[⟨88, 1⟩], 1⟩], 7⟩)⟩, ⟨0, none⟩], [⟨2, some (.expr ⟨[⟨[⟨89, 1⟩], 1⟩], 4⟩)⟩, ⟨0, none⟩]⟩, ⟨.L, [⟨1,
  some (.num 0)⟩, ⟨3, some (.num (-1))⟩, ⟨0, none⟩], [⟨2, some (.num 1)⟩, ⟨0, none⟩]⟩, .expr ⟨[⟨[⟨89, 1⟩], 15⟩, ⟨[⟨89, 2⟩],
  1⟩], 47⟩, [15, 16, 12, 13, 14], true⟩), (⟨some 16, .R, [.one 2, .many 3], [.many 2]⟩, .diff ⟨⟨.R, [⟨2, some (.num 1)⟩, ⟨3,
  some (.expr ⟨[⟨[⟨97, 1⟩], 1⟩], 4⟩)⟩, ⟨0, none⟩], [⟨2, some (.expr ⟨[⟨[⟨98, 1⟩], 1⟩], 7⟩)⟩, ⟨0, none⟩]⟩, ⟨.R, [⟨2,
  some (.num 0)⟩, ⟨3, some (.num (-1))⟩, ⟨0, none⟩], [⟨2, some (.num 1)⟩, ⟨0, none⟩]⟩, .expr ⟨[⟨[⟨98, 1⟩], 21⟩, ⟨[⟨98, 2⟩],
  1⟩], 101⟩, [16, 15, 12, 13, 14], true⟩), (⟨some 15, .L, [.many 2, .many 3, .many 4], []⟩, .diff ⟨⟨.L, [⟨2,
  some (.expr ⟨[⟨[⟨134, 1⟩], 1⟩], 5⟩)⟩, ⟨3, some (.expr ⟨[⟨[⟨135, 1⟩], 1⟩], 2⟩)⟩, ⟨4, some (.expr ⟨[⟨[⟨136, 1⟩], 1⟩], 9⟩)⟩, ⟨0,
  none⟩], [⟨0, none⟩]⟩, ⟨.L, [⟨2, some (.num 1)⟩, ⟨3, some (.num (-1))⟩, ⟨4, some (.num 0)⟩, ⟨0, none⟩], [⟨0, none⟩]⟩,
  .expr ⟨[⟨[⟨134, 1⟩], 15⟩, ⟨[⟨134, 2⟩], 1⟩], 48⟩, [15, 12, 13, 14, 16], true⟩), (⟨some 15, .L, [.many 3, .many 4], [.many 2]⟩,
  .diff ⟨⟨.L, [⟨3, some (.expr ⟨[⟨[⟨157, 1⟩], 1⟩], 3⟩)⟩, ⟨4, some (.expr ⟨[⟨[⟨158, 1⟩], 1⟩], 8⟩)⟩, ⟨0, none⟩], [⟨2,
  some (.expr ⟨[⟨[⟨159, 1⟩], 1⟩], 5⟩)⟩, ⟨0, none⟩]⟩, ⟨.L, [⟨3, some (.num (-1))⟩, ⟨4, some (.num 0)⟩, ⟨0, none⟩], [⟨2,
  some (.num 1)⟩, ⟨0, none⟩]⟩, .expr ⟨[⟨[⟨159, 1⟩], 15⟩, ⟨[⟨159, 2⟩], 1⟩], 49⟩, [15, 12, 13, 14, 16], true⟩), (⟨some 16, .R,
  [.many 2, .one 3, .many 4], []⟩, .diff ⟨⟨.R, [⟨2, some (.expr ⟨[⟨[⟨251, 1⟩], 1⟩], 11⟩)⟩, ⟨3, some (.num 1)⟩, ⟨4,
  some (.expr ⟨[⟨[⟨252, 1⟩], 1⟩], 4⟩)⟩, ⟨0, none⟩], [⟨0, none⟩]⟩, ⟨.R, [⟨2, some (.num 1)⟩, ⟨3, some (.num 0)⟩, ⟨4,
  some (.num (-1))⟩, ⟨0, none⟩], [⟨0, none⟩]⟩, .expr ⟨[⟨[⟨251, 1⟩], (650 : Rat)/3⟩, ⟨[⟨251, 2⟩], 15⟩, ⟨[⟨251, 3⟩],
  (1 : Rat)/3⟩], 1010⟩, [16, 15, 12, 13, 14, 8, 9, 10, 11], true⟩), (⟨some 16, .R, [.one 2, .many 3, .one 4], [.many 2]⟩,
  .diff ⟨⟨.R, [⟨2, some (.num 1)⟩, ⟨3, some (.expr ⟨[⟨[⟨296, 1⟩], 1⟩], 10⟩)⟩, ⟨4, some (.num 1)⟩, ⟨0, none⟩], [⟨2,
  some (.expr ⟨[⟨[⟨297, 1⟩], 1⟩], 4⟩)⟩, ⟨0, none⟩]⟩, ⟨.R, [⟨2, some (.num 0)⟩, ⟨3, some (.num (-1))⟩, ⟨4, some (.num 0)⟩, ⟨0,
  none⟩], [⟨2, some (.num 1)⟩, ⟨0, none⟩]⟩, .expr ⟨[⟨[⟨297, 1⟩], 15⟩, ⟨[⟨297, 2⟩], 1⟩], 47⟩, [16, 15, 12, 13, 14], true⟩)]⟩

end Props
