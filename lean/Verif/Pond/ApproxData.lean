import Verif.Pond.ApproxLemmas

/-!
# Annotations of the activations

For each function, configuration and input interval: an interval and an error bound per register. They are proposals,
verified by `Code.check`.
-/

namespace Verif.Pond

def sigmoidAnn64 : List Ann :=
  [⟨-4, 4, 0⟩, ⟨-16, 16, 1 / 6561⟩, ⟨-64, 64, 5 / 6561⟩, ⟨-1024, 1024, 2321 / 104976⟩, ⟨0, 0, -1⟩, ⟨0, 0, -1⟩,
   ⟨472 / 2187, 472 / 2187, 0⟩, ⟨-1888 / 2187, 1888 / 2187, 1 / 6561⟩, ⟨-53 / 6561, -53 / 6561, 0⟩,
   ⟨-3392 / 6561, 3392 / 6561, 17 / 104976⟩, ⟨1 / 6561, 1 / 6561, 0⟩, ⟨-1024 / 6561, 1024 / 6561, 17 / 104976⟩,
   ⟨0, 0, 0⟩, ⟨0, 0, 1 / 6561⟩, ⟨0, 0, 0⟩, ⟨0, 0, 1 / 6561⟩, ⟨0, 0, 2 / 6561⟩,
   ⟨-1024 / 6561, 1024 / 6561, 49 / 104976⟩, ⟨-1472 / 2187, 1472 / 2187, 11 / 17496⟩,
   ⟨-1120 / 729, 1120 / 729, 41 / 52488⟩, ⟨3280 / 6561, 3280 / 6561, 0⟩, ⟨-6800 / 6561, 13360 / 6561, 41 / 52488⟩]

def sigmoidAnn100 : List Ann :=
  [⟨-4, 4, 0⟩, ⟨-16, 16, 1 / 65536⟩, ⟨-64, 64, 5 / 65536⟩, ⟨-1024, 1024, 2321 / 1048576⟩, ⟨0, 0, -1⟩, ⟨0, 0, -1⟩,
   ⟨7075 / 32768, 7075 / 32768, 0⟩, ⟨-7075 / 8192, 7075 / 8192, 1 / 65536⟩, ⟨-269 / 32768, -269 / 32768, 0⟩,
   ⟨-269 / 512, 269 / 512, 17 / 1048576⟩, ⟨11 / 65536, 11 / 65536, 0⟩, ⟨-11 / 64, 11 / 64, 17 / 1048576⟩,
   ⟨0, 0, 0⟩, ⟨0, 0, 1 / 65536⟩, ⟨0, 0, 0⟩, ⟨0, 0, 1 / 65536⟩, ⟨0, 0, 1 / 32768⟩,
   ⟨-11 / 64, 11 / 64, 49 / 1048576⟩, ⟨-357 / 512, 357 / 512, 33 / 524288⟩,
   ⟨-12787 / 8192, 12787 / 8192, 41 / 524288⟩, ⟨1 / 2, 1 / 2, 0⟩, ⟨-8691 / 8192, 16883 / 8192, 41 / 524288⟩]

def reluAnn64 : List Ann :=
  [⟨-6, 6, 0⟩, ⟨-36, 36, 1 / 6561⟩, ⟨-1296, 1296, 1169 / 104976⟩, ⟨0, 0, -1⟩, ⟨0, 0, -1⟩,
   ⟨3280 / 6561, 3280 / 6561, 0⟩, ⟨-6560 / 2187, 6560 / 2187, 1 / 6561⟩, ⟨245 / 2187, 245 / 2187, 0⟩,
   ⟨-980 / 243, 980 / 243, 1 / 5832⟩, ⟨-8 / 6561, -8 / 6561, 0⟩, ⟨-128 / 81, 128 / 81, 1 / 5832⟩, ⟨0, 0, 0⟩,
   ⟨0, 0, 1 / 6561⟩, ⟨0, 0, 0⟩, ⟨0, 0, 1 / 6561⟩, ⟨0, 0, 2 / 6561⟩, ⟨-128 / 81, 128 / 81, 25 / 52488⟩,
   ⟨-1364 / 243, 1364 / 243, 17 / 26244⟩, ⟨-18836 / 2187, 18836 / 2187, 7 / 8748⟩, ⟨2887 / 6561, 2887 / 6561, 0⟩,
   ⟨-53621 / 6561, 59395 / 6561, 7 / 8748⟩]

def reluAnn100 : List Ann :=
  [⟨-6, 6, 0⟩, ⟨-36, 36, 1 / 65536⟩, ⟨-1296, 1296, 1169 / 1048576⟩, ⟨0, 0, -1⟩, ⟨0, 0, -1⟩, ⟨1 / 2, 1 / 2, 0⟩,
   ⟨-3, 3, 1 / 65536⟩, ⟨7351 / 65536, 7351 / 65536, 0⟩, ⟨-66159 / 16384, 66159 / 16384, 9 / 524288⟩,
   ⟨-89 / 65536, -89 / 65536, 0⟩, ⟨-7209 / 4096, 7209 / 4096, 9 / 524288⟩, ⟨0, 0, 0⟩, ⟨0, 0, 1 / 65536⟩, ⟨0, 0, 0⟩,
   ⟨0, 0, 1 / 65536⟩, ⟨0, 0, 1 / 32768⟩, ⟨-7209 / 4096, 7209 / 4096, 25 / 524288⟩,
   ⟨-94995 / 16384, 94995 / 16384, 17 / 262144⟩, ⟨-144147 / 16384, 144147 / 16384, 21 / 262144⟩,
   ⟨28845 / 65536, 28845 / 65536, 0⟩, ⟨-547743 / 65536, 605433 / 65536, 21 / 262144⟩]

def tanhAnn64 : List Ann :=
  [⟨-29 / 10, 29 / 10, 0⟩, ⟨-73571 / 8748, 73571 / 8748, 1 / 6561⟩, ⟨-53339 / 2187, 53339 / 2187, 7 / 11664⟩,
   ⟨-448583 / 2187, 448583 / 2187, 937 / 104976⟩, ⟨-7545199 / 4374, 7545199 / 4374, 11179 / 104976⟩,
   ⟨5594 / 6561, 5594 / 6561, 0⟩, ⟨-64891 / 26244, 64891 / 26244, 1 / 6561⟩, ⟨-91 / 729, -91 / 729, 0⟩,
   ⟨-26633 / 8748, 26633 / 8748, 1 / 4374⟩, ⟨23 / 2187, 23 / 2187, 0⟩, ⟨-14153 / 6561, 14153 / 6561, 13 / 52488⟩,
   ⟨-2 / 6561, -2 / 6561, 0⟩, ⟨-13801 / 26244, 13801 / 26244, 5 / 26244⟩,
   ⟨-23471 / 8748, 23471 / 8748, 23 / 52488⟩, ⟨-12526 / 2187, 12526 / 2187, 35 / 52488⟩,
   ⟨-215203 / 26244, 215203 / 26244, 43 / 52488⟩, ⟨0, 0, 0⟩, ⟨-215203 / 26244, 215203 / 26244, 43 / 52488⟩]

def tanhAnn100 : List Ann :=
  [⟨-29 / 10, 29 / 10, 0⟩, ⟨-275579 / 32768, 275579 / 32768, 1 / 65536⟩,
   ⟨-6393433 / 262144, 6393433 / 262144, 63 / 1048576⟩, ⟨-53768795 / 262144, 53768795 / 262144, 937 / 1048576⟩,
   ⟨-452195763 / 262144, 452195763 / 262144, 5589 / 524288⟩, ⟨55883 / 65536, 55883 / 65536, 0⟩,
   ⟨-648243 / 262144, 648243 / 262144, 1 / 65536⟩, ⟨-2047 / 16384, -2047 / 16384, 0⟩,
   ⟨-798789 / 262144, 798789 / 262144, 3 / 131072⟩, ⟨349 / 32768, 349 / 32768, 0⟩,
   ⟨-2237 / 1024, 2237 / 1024, 13 / 524288⟩, ⟨-27 / 65536, -27 / 65536, 0⟩,
   ⟨-186299 / 262144, 186299 / 262144, 21 / 1048576⟩, ⟨-758971 / 262144, 758971 / 262144, 47 / 1048576⟩,
   ⟨-6085 / 1024, 6085 / 1024, 71 / 1048576⟩, ⟨-2206003 / 262144, 2206003 / 262144, 87 / 1048576⟩, ⟨0, 0, 0⟩,
   ⟨-2206003 / 262144, 2206003 / 262144, 87 / 1048576⟩]

def logAnn64 : List Ann :=
  [⟨1 / 10, 3 / 2, 0⟩, ⟨131 / 13122, 9 / 4, 1 / 6561⟩, ⟨13 / 13122, 44287 / 13122, 5 / 13122⟩,
   ⟨1 / 13122, 44287 / 8748, 19 / 26244⟩, ⟨0, 49823 / 6561, 161 / 104976⟩, ⟨27979 / 2187, 27979 / 2187, 0⟩,
   ⟨16787 / 13122, 27979 / 1458, 1 / 6561⟩, ⟨-171829 / 6561, -171829 / 6561, 0⟩,
   ⟨-171829 / 2916, -2287 / 8748, 109 / 26244⟩, ⟨198443 / 6561, 198443 / 6561, 0⟩,
   ⟨131 / 4374, 669749 / 6561, 613 / 52488⟩, ⟨-37843 / 2187, -37843 / 2187, 0⟩,
   ⟨-574744 / 6561, -17 / 13122, 37 / 2916⟩, ⟨25094 / 6561, 25094 / 6561, 0⟩, ⟨0, 28231 / 972, 79 / 13122⟩,
   ⟨-574744 / 6561, 762203 / 26244, 491 / 26244⟩, ⟨-1149095 / 13122, 3441199 / 26244, 1595 / 52488⟩,
   ⟨-3844651 / 26244, 1717169 / 13122, 1813 / 52488⟩, ⟨-141151 / 972, 984490 / 6561, 607 / 17496⟩,
   ⟨-2447 / 729, -2447 / 729, 0⟩, ⟨-433241 / 2916, 962467 / 6561, 607 / 17496⟩]

def logAnn100 : List Ann :=
  [⟨1 / 10, 3 / 2, 0⟩, ⟨2621 / 262144, 9 / 4, 1 / 65536⟩, ⟨131 / 131072, 27 / 8, 5 / 131072⟩,
   ⟨13 / 131072, 81 / 16, 19 / 262144⟩, ⟨1 / 131072, 243 / 32, 161 / 1048576⟩, ⟨104803 / 8192, 104803 / 8192, 0⟩,
   ⟨335369 / 262144, 314409 / 16384, 1 / 65536⟩, ⟨-858179 / 32768, -858179 / 32768, 0⟩,
   ⟨-7723611 / 131072, -34321 / 131072, 109 / 262144⟩, ⟨1982199 / 65536, 1982199 / 65536, 0⟩,
   ⟨1981 / 65536, 26759687 / 262144, 613 / 524288⟩, ⟨-1134013 / 65536, -1134013 / 65536, 0⟩,
   ⟨-5740941 / 65536, -449 / 262144, 333 / 262144⟩, ⟨125329 / 32768, 125329 / 32768, 0⟩,
   ⟨7 / 262144, 7613737 / 262144, 79 / 131072⟩, ⟨-22963757 / 262144, 951661 / 32768, 491 / 262144⟩,
   ⟨-22955833 / 262144, 34372975 / 262144, 1595 / 524288⟩, ⟨-38403055 / 262144, 34304333 / 262144, 1813 / 524288⟩,
   ⟨-19033843 / 131072, 39334877 / 262144, 1821 / 524288⟩, ⟨-219987 / 65536, -219987 / 65536, 0⟩,
   ⟨-19473817 / 131072, 38454929 / 262144, 1821 / 524288⟩]

def sigmoidFarAnn64 : List Ann :=
  [⟨8, 8, 0⟩, ⟨64, 64, 1 / 6561⟩, ⟨512, 512, 1 / 729⟩, ⟨32768, 32768, 17425 / 104976⟩,
   ⟨2097152, 2097152, 1639507 / 104976⟩, ⟨134217728, 134217728, 69241573 / 52488⟩, ⟨472 / 2187, 472 / 2187, 0⟩,
   ⟨3776 / 2187, 3776 / 2187, 1 / 6561⟩, ⟨-53 / 6561, -53 / 6561, 0⟩, ⟨-27136 / 6561, -27136 / 6561, 1 / 5832⟩,
   ⟨1 / 6561, 1 / 6561, 0⟩, ⟨32768 / 6561, 32768 / 6561, 19 / 104976⟩, ⟨0, 0, 0⟩, ⟨0, 0, 1 / 6561⟩, ⟨0, 0, 0⟩,
   ⟨0, 0, 1 / 6561⟩, ⟨0, 0, 2 / 6561⟩, ⟨32768 / 6561, 32768 / 6561, 17 / 34992⟩,
   ⟨5632 / 6561, 5632 / 6561, 23 / 34992⟩, ⟨16960 / 6561, 16960 / 6561, 85 / 104976⟩,
   ⟨3280 / 6561, 3280 / 6561, 0⟩, ⟨20240 / 6561, 20240 / 6561, 85 / 104976⟩]

def sigmoidFarAnn100 : List Ann :=
  [⟨8, 8, 0⟩, ⟨64, 64, 1 / 65536⟩, ⟨512, 512, 9 / 65536⟩, ⟨32768, 32768, 17425 / 1048576⟩,
   ⟨2097152, 2097152, 1639505 / 1048576⟩, ⟨134217728, 134217728, 69241397 / 524288⟩,
   ⟨7075 / 32768, 7075 / 32768, 0⟩, ⟨7075 / 4096, 7075 / 4096, 1 / 65536⟩, ⟨-269 / 32768, -269 / 32768, 0⟩,
   ⟨-269 / 64, -269 / 64, 9 / 524288⟩, ⟨11 / 65536, 11 / 65536, 0⟩, ⟨11 / 2, 11 / 2, 19 / 1048576⟩, ⟨0, 0, 0⟩,
   ⟨0, 0, 1 / 65536⟩, ⟨0, 0, 0⟩, ⟨0, 0, 1 / 65536⟩, ⟨0, 0, 1 / 32768⟩, ⟨11 / 2, 11 / 2, 51 / 1048576⟩,
   ⟨83 / 64, 83 / 64, 69 / 1048576⟩, ⟨12387 / 4096, 12387 / 4096, 85 / 1048576⟩, ⟨1 / 2, 1 / 2, 0⟩,
   ⟨14435 / 4096, 14435 / 4096, 85 / 1048576⟩]

def reluFarAnn64 : List Ann :=
  [⟨10, 10, 0⟩, ⟨100, 100, 1 / 6561⟩, ⟨10000, 10000, 3217 / 104976⟩, ⟨1000000, 1000000, 481717 / 104976⟩,
   ⟨100000000, 100000000, 32085895 / 52488⟩, ⟨3280 / 6561, 3280 / 6561, 0⟩, ⟨32800 / 6561, 32800 / 6561, 1 / 6561⟩,
   ⟨245 / 2187, 245 / 2187, 0⟩, ⟨24500 / 2187, 24500 / 2187, 1 / 5832⟩, ⟨-8 / 6561, -8 / 6561, 0⟩,
   ⟨-80000 / 6561, -80000 / 6561, 5 / 26244⟩, ⟨0, 0, 0⟩, ⟨0, 0, 1 / 6561⟩, ⟨0, 0, 0⟩, ⟨0, 0, 1 / 6561⟩,
   ⟨0, 0, 2 / 6561⟩, ⟨-80000 / 6561, -80000 / 6561, 13 / 26244⟩, ⟨-6500 / 6561, -6500 / 6561, 35 / 52488⟩,
   ⟨26300 / 6561, 26300 / 6561, 43 / 52488⟩, ⟨2887 / 6561, 2887 / 6561, 0⟩, ⟨1081 / 243, 1081 / 243, 43 / 52488⟩]

def reluFarAnn100 : List Ann :=
  [⟨10, 10, 0⟩, ⟨100, 100, 1 / 65536⟩, ⟨10000, 10000, 3217 / 1048576⟩, ⟨1000000, 1000000, 481717 / 1048576⟩,
   ⟨100000000, 100000000, 16042931 / 262144⟩, ⟨1 / 2, 1 / 2, 0⟩, ⟨5, 5, 1 / 65536⟩,
   ⟨7351 / 65536, 7351 / 65536, 0⟩, ⟨183775 / 16384, 183775 / 16384, 9 / 524288⟩, ⟨-89 / 65536, -89 / 65536, 0⟩,
   ⟨-55625 / 4096, -55625 / 4096, 21 / 1048576⟩, ⟨0, 0, 0⟩, ⟨0, 0, 1 / 65536⟩, ⟨0, 0, 0⟩, ⟨0, 0, 1 / 65536⟩,
   ⟨0, 0, 1 / 32768⟩, ⟨-55625 / 4096, -55625 / 4096, 53 / 1048576⟩, ⟨-38725 / 16384, -38725 / 16384, 71 / 1048576⟩,
   ⟨43195 / 16384, 43195 / 16384, 87 / 1048576⟩, ⟨28845 / 65536, 28845 / 65536, 0⟩,
   ⟨201625 / 65536, 201625 / 65536, 87 / 1048576⟩]

def reluZeroAnn64 : List Ann :=
  [⟨0, 0, 0⟩, ⟨0, 0, 1 / 6561⟩, ⟨0, 0, 17 / 104976⟩, ⟨0, 0, 17 / 104976⟩, ⟨0, 0, 17 / 104976⟩,
   ⟨3280 / 6561, 3280 / 6561, 0⟩, ⟨0, 0, 1 / 6561⟩, ⟨245 / 2187, 245 / 2187, 0⟩, ⟨0, 0, 1 / 5832⟩,
   ⟨-8 / 6561, -8 / 6561, 0⟩, ⟨0, 0, 17 / 104976⟩, ⟨0, 0, 0⟩, ⟨0, 0, 1 / 6561⟩, ⟨0, 0, 0⟩, ⟨0, 0, 1 / 6561⟩,
   ⟨0, 0, 2 / 6561⟩, ⟨0, 0, 49 / 104976⟩, ⟨0, 0, 67 / 104976⟩, ⟨0, 0, 83 / 104976⟩, ⟨2887 / 6561, 2887 / 6561, 0⟩,
   ⟨2887 / 6561, 2887 / 6561, 83 / 104976⟩]

def reluZeroAnn100 : List Ann :=
  [⟨0, 0, 0⟩, ⟨0, 0, 1 / 65536⟩, ⟨0, 0, 17 / 1048576⟩, ⟨0, 0, 17 / 1048576⟩, ⟨0, 0, 17 / 1048576⟩,
   ⟨1 / 2, 1 / 2, 0⟩, ⟨0, 0, 1 / 65536⟩, ⟨7351 / 65536, 7351 / 65536, 0⟩, ⟨0, 0, 9 / 524288⟩,
   ⟨-89 / 65536, -89 / 65536, 0⟩, ⟨0, 0, 17 / 1048576⟩, ⟨0, 0, 0⟩, ⟨0, 0, 1 / 65536⟩, ⟨0, 0, 0⟩, ⟨0, 0, 1 / 65536⟩,
   ⟨0, 0, 1 / 32768⟩, ⟨0, 0, 49 / 1048576⟩, ⟨0, 0, 67 / 1048576⟩, ⟨0, 0, 83 / 1048576⟩,
   ⟨28845 / 65536, 28845 / 65536, 0⟩, ⟨28845 / 65536, 28845 / 65536, 83 / 1048576⟩]

def tanhFarAnn64 : List Ann :=
  [⟨5, 5, 0⟩, ⟨25, 25, 1 / 6561⟩, ⟨125, 125, 2 / 2187⟩, ⟨3125, 3125, 4417 / 104976⟩,
   ⟨78125, 78125, 80221 / 52488⟩, ⟨5594 / 6561, 5594 / 6561, 0⟩, ⟨27970 / 6561, 27970 / 6561, 1 / 6561⟩,
   ⟨-91 / 729, -91 / 729, 0⟩, ⟨-11375 / 729, -11375 / 729, 7 / 26244⟩, ⟨23 / 2187, 23 / 2187, 0⟩,
   ⟨71875 / 2187, 71875 / 2187, 7 / 11664⟩, ⟨-2 / 6561, -2 / 6561, 0⟩,
   ⟨-156250 / 6561, -156250 / 6561, 65 / 104976⟩, ⟨59375 / 6561, 59375 / 6561, 8 / 6561⟩,
   ⟨-43000 / 6561, -43000 / 6561, 13 / 8748⟩, ⟨-1670 / 729, -1670 / 729, 43 / 26244⟩, ⟨0, 0, 0⟩,
   ⟨-1670 / 729, -1670 / 729, 43 / 26244⟩]

def tanhFarAnn100 : List Ann :=
  [⟨5, 5, 0⟩, ⟨25, 25, 1 / 65536⟩, ⟨125, 125, 3 / 32768⟩, ⟨3125, 3125, 4417 / 1048576⟩,
   ⟨78125, 78125, 80221 / 524288⟩, ⟨55883 / 65536, 55883 / 65536, 0⟩, ⟨279415 / 65536, 279415 / 65536, 1 / 65536⟩,
   ⟨-2047 / 16384, -2047 / 16384, 0⟩, ⟨-255875 / 16384, -255875 / 16384, 7 / 262144⟩,
   ⟨349 / 32768, 349 / 32768, 0⟩, ⟨1090625 / 32768, 1090625 / 32768, 1 / 16384⟩, ⟨-27 / 65536, -27 / 65536, 0⟩,
   ⟨-2109375 / 65536, -2109375 / 65536, 83 / 1048576⟩, ⟨71875 / 65536, 71875 / 65536, 147 / 1048576⟩,
   ⟨-951625 / 65536, -951625 / 65536, 175 / 1048576⟩, ⟨-336105 / 32768, -336105 / 32768, 191 / 1048576⟩, ⟨0, 0, 0⟩,
   ⟨-336105 / 32768, -336105 / 32768, 191 / 1048576⟩]

def logFarAnn64 : List Ann :=
  [⟨2, 2, 0⟩, ⟨4, 4, 1 / 6561⟩, ⟨8, 8, 1 / 2187⟩, ⟨16, 16, 7 / 6561⟩, ⟨32, 32, 337 / 104976⟩,
   ⟨27979 / 2187, 27979 / 2187, 0⟩, ⟨55958 / 2187, 55958 / 2187, 1 / 6561⟩, ⟨-171829 / 6561, -171829 / 6561, 0⟩,
   ⟨-687316 / 6561, -687316 / 6561, 109 / 26244⟩, ⟨198443 / 6561, 198443 / 6561, 0⟩,
   ⟨1587544 / 6561, 1587544 / 6561, 367 / 26244⟩, ⟨-37843 / 2187, -37843 / 2187, 0⟩,
   ⟨-605488 / 2187, -605488 / 2187, 1955 / 104976⟩, ⟨25094 / 6561, 25094 / 6561, 0⟩,
   ⟨803008 / 6561, 803008 / 6561, 145 / 11664⟩, ⟨-1013456 / 6561, -1013456 / 6561, 815 / 26244⟩,
   ⟨574088 / 6561, 574088 / 6561, 197 / 4374⟩, ⟨-113228 / 6561, -113228 / 6561, 1291 / 26244⟩,
   ⟨54646 / 6561, 54646 / 6561, 1295 / 26244⟩, ⟨-2447 / 729, -2447 / 729, 0⟩,
   ⟨32623 / 6561, 32623 / 6561, 1295 / 26244⟩]

def logFarAnn100 : List Ann :=
  [⟨2, 2, 0⟩, ⟨4, 4, 1 / 65536⟩, ⟨8, 8, 3 / 65536⟩, ⟨16, 16, 7 / 65536⟩, ⟨32, 32, 337 / 1048576⟩,
   ⟨104803 / 8192, 104803 / 8192, 0⟩, ⟨104803 / 4096, 104803 / 4096, 1 / 65536⟩,
   ⟨-858179 / 32768, -858179 / 32768, 0⟩, ⟨-858179 / 8192, -858179 / 8192, 109 / 262144⟩,
   ⟨1982199 / 65536, 1982199 / 65536, 0⟩, ⟨1982199 / 8192, 1982199 / 8192, 367 / 262144⟩,
   ⟨-1134013 / 65536, -1134013 / 65536, 0⟩, ⟨-1134013 / 4096, -1134013 / 4096, 1955 / 1048576⟩,
   ⟨125329 / 32768, 125329 / 32768, 0⟩, ⟨125329 / 1024, 125329 / 1024, 1305 / 1048576⟩,
   ⟨-632697 / 4096, -632697 / 4096, 815 / 262144⟩, ⟨716805 / 8192, 716805 / 8192, 591 / 131072⟩,
   ⟨-70687 / 4096, -70687 / 4096, 1291 / 262144⟩, ⟨8529 / 1024, 8529 / 1024, 1295 / 262144⟩,
   ⟨-219987 / 65536, -219987 / 65536, 0⟩, ⟨325869 / 65536, 325869 / 65536, 1295 / 262144⟩]

end Verif.Pond
