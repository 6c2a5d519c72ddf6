import Verif.Props.EndToEnd
/-
  C62: the schema of the kitchen sink example (/repo/examples/kitchen_sink/kitchen_sink.cnd, the whole file) as the compiler compiles it.
-/

namespace Cnd

/-- The bytes of the file. -/
def ksSrc : List Byte :=
  [101, 110, 117, 109, 32, 83, 116, 97, 116, 117, 115, 32, 58, 32, 117, 105, 110, 116, 56, 32, 123, 10, 32, 32, 32, 32, 79, 75, 32, 61, 32, 48, 44,
   10, 32, 32, 32, 32, 70, 65, 73, 76, 32, 61, 32, 49, 10, 125, 10, 10, 115, 116, 114, 117, 99, 116, 32, 86, 101, 99, 51, 32, 123, 10, 32, 32, 32,
   32, 102, 108, 111, 97, 116, 32, 120, 59, 10, 32, 32, 32, 32, 102, 108, 111, 97, 116, 32, 121, 59, 10, 32, 32, 32, 32, 102, 108, 111, 97, 116, 32,
   122, 59, 10, 125, 10, 10, 64, 117, 110, 97, 108, 105, 103, 110, 101, 100, 95, 98, 121, 116, 101, 115, 10, 115, 116, 114, 117, 99, 116, 32, 66,
   105, 116, 80, 97, 99, 107, 101, 100, 32, 123, 10, 32, 32, 32, 32, 117, 105, 110, 116, 56, 32, 97, 95, 51, 98, 105, 116, 115, 32, 58, 32, 51, 59,
   10, 32, 32, 32, 32, 117, 105, 110, 116, 56, 32, 98, 95, 53, 98, 105, 116, 115, 32, 58, 32, 53, 59, 32, 47, 47, 32, 67, 111, 109, 112, 108, 101,
   116, 101, 115, 32, 66, 121, 116, 101, 32, 48, 10, 32, 32, 32, 32, 117, 105, 110, 116, 56, 32, 99, 95, 52, 98, 105, 116, 115, 32, 58, 32, 52, 59,
   32, 47, 47, 32, 83, 116, 97, 114, 116, 32, 66, 121, 116, 101, 32, 49, 32, 40, 52, 32, 98, 105, 116, 115, 32, 117, 115, 101, 100, 41, 10, 10, 32,
   32, 32, 32, 64, 102, 105, 108, 108, 40, 49, 41, 59, 32, 32, 32, 32, 32, 32, 32, 32, 32, 32, 47, 47, 32, 83, 107, 105, 112, 32, 52, 32, 98, 105,
   116, 115, 32, 40, 102, 105, 108, 108, 32, 119, 105, 116, 104, 32, 49, 115, 41, 32, 45, 62, 32, 65, 108, 105, 103, 110, 32, 116, 111, 32, 66, 121,
   116, 101, 32, 50, 10, 10, 32, 32, 32, 32, 117, 105, 110, 116, 56, 32, 100, 95, 97, 108, 105, 103, 110, 101, 100, 59, 32, 32, 32, 47, 47, 32, 66,
   121, 116, 101, 32, 50, 10, 125, 10, 10, 112, 97, 99, 107, 101, 116, 32, 75, 105, 116, 99, 104, 101, 110, 83, 105, 110, 107, 32, 123, 10, 32, 32,
   32, 32, 47, 47, 32, 80, 114, 105, 109, 105, 116, 105, 118, 101, 115, 32, 38, 32, 69, 110, 100, 105, 97, 110, 110, 101, 115, 115, 10, 32, 32, 32,
   32, 64, 98, 105, 103, 95, 101, 110, 100, 105, 97, 110, 10, 32, 32, 32, 32, 117, 105, 110, 116, 51, 50, 32, 109, 97, 103, 105, 99, 59, 32, 47, 47,
   32, 75, 101, 121, 32, 48, 10, 32, 32, 32, 32, 10, 32, 32, 32, 32, 47, 47, 32, 66, 105, 116, 102, 105, 101, 108, 100, 115, 10, 32, 32, 32, 32,
   117, 105, 110, 116, 49, 54, 32, 102, 108, 97, 103, 115, 95, 97, 32, 58, 32, 49, 59, 32, 47, 47, 32, 75, 101, 121, 32, 49, 10, 32, 32, 32, 32, 98,
   111, 111, 108, 32, 32, 32, 102, 108, 97, 103, 95, 98, 32, 32, 58, 32, 49, 59, 32, 47, 47, 32, 75, 101, 121, 32, 50, 10, 32, 32, 32, 32, 105, 110,
   116, 56, 32, 32, 32, 118, 97, 108, 95, 99, 32, 32, 32, 58, 32, 54, 59, 32, 47, 47, 32, 75, 101, 121, 32, 51, 10, 32, 32, 32, 32, 10, 32, 32, 32,
   32, 47, 47, 32, 80, 114, 105, 109, 105, 116, 105, 118, 101, 115, 10, 32, 32, 32, 32, 105, 110, 116, 54, 52, 32, 116, 105, 109, 101, 115, 116, 97,
   109, 112, 59, 32, 47, 47, 32, 75, 101, 121, 32, 52, 10, 32, 32, 32, 32, 10, 32, 32, 32, 32, 47, 47, 32, 78, 101, 115, 116, 101, 100, 32, 83, 116,
   114, 117, 99, 116, 10, 32, 32, 32, 32, 86, 101, 99, 51, 32, 112, 111, 115, 105, 116, 105, 111, 110, 59, 32, 47, 47, 32, 75, 101, 121, 32, 53, 32,
   40, 73, 110, 115, 105, 100, 101, 58, 32, 120, 61, 54, 44, 32, 121, 61, 55, 44, 32, 122, 61, 56, 41, 10, 32, 32, 32, 32, 10, 32, 32, 32, 32, 47,
   47, 32, 65, 114, 114, 97, 121, 32, 111, 102, 32, 83, 116, 114, 117, 99, 116, 115, 32, 40, 70, 105, 120, 101, 100, 41, 10, 32, 32, 32, 32, 86,
   101, 99, 51, 32, 119, 97, 121, 112, 111, 105, 110, 116, 115, 91, 52, 93, 59, 10, 32, 32, 32, 32, 10, 32, 32, 32, 32, 47, 47, 32, 65, 114, 114,
   97, 121, 32, 40, 70, 105, 120, 101, 100, 41, 10, 32, 32, 32, 32, 117, 105, 110, 116, 56, 32, 109, 97, 116, 114, 105, 120, 91, 52, 93, 59, 32, 47,
   47, 32, 75, 101, 121, 32, 57, 10, 32, 32, 32, 32, 10, 32, 32, 32, 32, 47, 47, 32, 65, 114, 114, 97, 121, 32, 40, 86, 97, 114, 105, 97, 98, 108,
   101, 41, 10, 32, 32, 32, 32, 117, 105, 110, 116, 49, 54, 32, 112, 111, 105, 110, 116, 115, 91, 93, 32, 112, 114, 101, 102, 105, 120, 32, 117,
   105, 110, 116, 56, 59, 32, 47, 47, 32, 75, 101, 121, 32, 49, 48, 10, 32, 32, 32, 32, 10, 32, 32, 32, 32, 47, 47, 32, 83, 116, 114, 105, 110, 103,
   10, 32, 32, 32, 32, 115, 116, 114, 105, 110, 103, 32, 110, 97, 109, 101, 32, 109, 97, 120, 32, 51, 50, 59, 32, 47, 47, 32, 75, 101, 121, 32, 49,
   49, 10, 32, 32, 32, 32, 10, 32, 32, 32, 32, 47, 47, 32, 83, 119, 105, 116, 99, 104, 32, 47, 32, 85, 110, 105, 111, 110, 10, 32, 32, 32, 32, 83,
   116, 97, 116, 117, 115, 32, 115, 116, 97, 116, 117, 115, 59, 32, 47, 47, 32, 75, 101, 121, 32, 49, 50, 10, 32, 32, 32, 32, 115, 119, 105, 116,
   99, 104, 32, 40, 115, 116, 97, 116, 117, 115, 41, 32, 123, 10, 32, 32, 32, 32, 32, 32, 32, 32, 99, 97, 115, 101, 32, 83, 116, 97, 116, 117, 115,
   46, 79, 75, 58, 32, 123, 10, 32, 32, 32, 32, 32, 32, 32, 32, 32, 32, 32, 32, 117, 105, 110, 116, 56, 32, 99, 111, 110, 102, 105, 100, 101, 110,
   99, 101, 59, 32, 47, 47, 32, 75, 101, 121, 32, 49, 51, 10, 32, 32, 32, 32, 32, 32, 32, 32, 125, 10, 32, 32, 32, 32, 32, 32, 32, 32, 99, 97, 115,
   101, 32, 83, 116, 97, 116, 117, 115, 46, 70, 65, 73, 76, 58, 32, 123, 10, 32, 32, 32, 32, 32, 32, 32, 32, 32, 32, 32, 32, 117, 105, 110, 116, 49,
   54, 32, 101, 114, 114, 111, 114, 95, 99, 111, 100, 101, 59, 32, 47, 47, 32, 75, 101, 121, 32, 49, 52, 10, 32, 32, 32, 32, 32, 32, 32, 32, 32, 32,
   32, 32, 115, 116, 114, 105, 110, 103, 32, 114, 101, 97, 115, 111, 110, 32, 112, 114, 101, 102, 105, 120, 32, 117, 105, 110, 116, 56, 59, 32, 47,
   47, 32, 75, 101, 121, 32, 49, 53, 10, 32, 32, 32, 32, 32, 32, 32, 32, 125, 10, 32, 32, 32, 32, 125, 10, 32, 32, 32, 32, 10, 32, 32, 32, 32, 47,
   47, 32, 86, 97, 108, 105, 100, 97, 116, 105, 111, 110, 32, 38, 32, 84, 114, 97, 110, 115, 102, 111, 114, 109, 10, 32, 32, 32, 32, 64, 114, 97,
   110, 103, 101, 40, 48, 44, 32, 49, 48, 48, 41, 10, 32, 32, 32, 32, 117, 105, 110, 116, 56, 32, 112, 101, 114, 99, 101, 110, 116, 97, 103, 101,
   59, 32, 47, 47, 32, 75, 101, 121, 32, 49, 54, 10, 32, 32, 32, 32, 10, 32, 32, 32, 32, 64, 115, 99, 97, 108, 101, 40, 48, 46, 49, 41, 10, 32, 32,
   32, 32, 117, 105, 110, 116, 49, 54, 32, 116, 101, 109, 112, 101, 114, 97, 116, 117, 114, 101, 59, 32, 47, 47, 32, 75, 101, 121, 32, 49, 55, 32,
   40, 83, 116, 111, 114, 101, 100, 32, 97, 115, 32, 117, 49, 54, 44, 32, 65, 112, 112, 32, 115, 101, 101, 115, 32, 102, 108, 111, 97, 116, 41, 10,
   32, 32, 32, 32, 10, 32, 32, 32, 32, 64, 97, 100, 100, 40, 49, 48, 41, 10, 32, 32, 32, 32, 117, 105, 110, 116, 56, 32, 118, 97, 108, 95, 97, 100,
   100, 59, 10, 10, 32, 32, 32, 32, 64, 115, 117, 98, 40, 53, 41, 10, 32, 32, 32, 32, 117, 105, 110, 116, 56, 32, 118, 97, 108, 95, 115, 117, 98,
   59, 10, 10, 32, 32, 32, 32, 64, 109, 117, 108, 40, 50, 41, 10, 32, 32, 32, 32, 117, 105, 110, 116, 56, 32, 118, 97, 108, 95, 109, 117, 108, 59,
   10, 10, 32, 32, 32, 32, 64, 100, 105, 118, 40, 52, 41, 10, 32, 32, 32, 32, 117, 105, 110, 116, 56, 32, 118, 97, 108, 95, 100, 105, 118, 59, 10,
   10, 32, 32, 32, 32, 47, 47, 32, 80, 82, 79, 79, 70, 58, 32, 83, 116, 111, 114, 105, 110, 103, 32, 50, 48, 50, 53, 32, 105, 110, 32, 97, 32, 117,
   105, 110, 116, 56, 32, 40, 109, 97, 120, 32, 50, 53, 53, 41, 10, 32, 32, 32, 32, 47, 47, 32, 50, 48, 50, 53, 32, 45, 32, 49, 57, 48, 48, 32, 61,
   32, 49, 50, 53, 32, 40, 70, 105, 116, 115, 32, 105, 110, 32, 117, 105, 110, 116, 56, 33, 41, 10, 32, 32, 32, 32, 64, 97, 100, 100, 40, 49, 57,
   48, 48, 41, 10, 32, 32, 32, 32, 117, 105, 110, 116, 49, 54, 32, 121, 101, 97, 114, 59, 32, 47, 47, 32, 75, 101, 121, 32, 50, 52, 10, 10, 32, 32,
   32, 32, 64, 112, 111, 108, 121, 40, 53, 46, 48, 44, 32, 50, 46, 48, 44, 32, 48, 46, 53, 41, 10, 32, 32, 32, 32, 117, 105, 110, 116, 56, 32, 112,
   111, 108, 121, 95, 118, 97, 108, 59, 32, 47, 47, 32, 75, 101, 121, 32, 50, 53, 10, 10, 32, 32, 32, 32, 64, 115, 112, 108, 105, 110, 101, 40, 48,
   46, 48, 44, 32, 48, 46, 48, 44, 32, 49, 48, 46, 48, 44, 32, 49, 48, 48, 46, 48, 44, 32, 50, 48, 46, 48, 44, 32, 52, 48, 48, 46, 48, 41, 10, 32,
   32, 32, 32, 117, 105, 110, 116, 56, 32, 115, 112, 108, 105, 110, 101, 95, 118, 97, 108, 59, 10, 10, 32, 32, 32, 32, 64, 101, 120, 112, 114, 40,
   118, 97, 108, 95, 97, 100, 100, 32, 43, 32, 118, 97, 108, 95, 115, 117, 98, 41, 10, 32, 32, 32, 32, 117, 105, 110, 116, 56, 32, 101, 120, 112,
   114, 95, 118, 97, 108, 59, 10, 10, 32, 32, 32, 32, 47, 47, 32, 85, 110, 97, 108, 105, 103, 110, 101, 100, 32, 83, 116, 114, 117, 99, 116, 32, 84,
   101, 115, 116, 10, 32, 32, 32, 32, 66, 105, 116, 80, 97, 99, 107, 101, 100, 32, 98, 105, 116, 95, 112, 97, 99, 107, 101, 100, 59, 10, 32, 32, 32,
   32, 10, 32, 32, 32, 32, 98, 111, 111, 108, 32, 104, 97, 115, 95, 101, 120, 116, 114, 97, 59, 32, 47, 47, 32, 75, 101, 121, 32, 50, 54, 10, 32,
   32, 32, 32, 105, 102, 32, 40, 104, 97, 115, 95, 101, 120, 116, 114, 97, 41, 32, 123, 10, 32, 32, 32, 32, 32, 32, 32, 32, 115, 116, 114, 105, 110,
   103, 32, 101, 120, 116, 114, 97, 95, 100, 97, 116, 97, 32, 112, 114, 101, 102, 105, 120, 32, 117, 105, 110, 116, 56, 59, 32, 47, 47, 32, 75, 101,
   121, 32, 49, 57, 10, 32, 32, 32, 32, 125, 10, 10, 32, 32, 32, 32, 64, 99, 114, 99, 40, 51, 50, 41, 10, 32, 32, 32, 32, 117, 105, 110, 116, 51,
   50, 32, 99, 104, 101, 99, 107, 115, 117, 109, 59, 32, 47, 47, 32, 75, 101, 121, 32, 50, 48, 10, 32, 32, 32, 32, 47, 47, 32, 65, 100, 118, 97,
   110, 99, 101, 100, 32, 83, 119, 105, 116, 99, 104, 32, 119, 105, 116, 104, 32, 73, 102, 47, 69, 108, 115, 101, 10, 32, 32, 32, 32, 117, 105, 110,
   116, 56, 32, 97, 100, 118, 95, 109, 111, 100, 101, 59, 32, 47, 47, 32, 75, 101, 121, 32, 50, 49, 10, 32, 32, 32, 32, 115, 119, 105, 116, 99, 104,
   32, 40, 97, 100, 118, 95, 109, 111, 100, 101, 41, 32, 123, 10, 32, 32, 32, 32, 32, 32, 32, 32, 99, 97, 115, 101, 32, 48, 58, 32, 123, 10, 32, 32,
   32, 32, 32, 32, 32, 32, 32, 32, 32, 32, 117, 105, 110, 116, 49, 54, 32, 97, 100, 118, 95, 115, 105, 109, 112, 108, 101, 95, 118, 97, 108, 59, 32,
   47, 47, 32, 75, 101, 121, 32, 50, 50, 10, 32, 32, 32, 32, 32, 32, 32, 32, 125, 10, 32, 32, 32, 32, 32, 32, 32, 32, 99, 97, 115, 101, 32, 49, 58,
   32, 123, 10, 32, 32, 32, 32, 32, 32, 32, 32, 98, 111, 111, 108, 32, 97, 100, 118, 95, 104, 97, 115, 95, 100, 101, 116, 97, 105, 108, 115, 59, 32,
   47, 47, 32, 75, 101, 121, 32, 50, 51, 63, 10, 32, 32, 32, 32, 32, 32, 32, 32, 32, 32, 32, 32, 105, 102, 32, 40, 97, 100, 118, 95, 104, 97, 115,
   95, 100, 101, 116, 97, 105, 108, 115, 41, 32, 123, 10, 32, 32, 32, 32, 32, 32, 32, 32, 32, 32, 32, 32, 32, 32, 32, 32, 115, 116, 114, 105, 110,
   103, 32, 97, 100, 118, 95, 100, 101, 116, 97, 105, 108, 115, 32, 112, 114, 101, 102, 105, 120, 32, 117, 105, 110, 116, 56, 59, 32, 47, 47, 32,
   75, 101, 121, 32, 50, 52, 10, 32, 32, 32, 32, 32, 32, 32, 32, 32, 32, 32, 32, 125, 32, 101, 108, 115, 101, 32, 123, 10, 32, 32, 32, 32, 32, 32,
   32, 32, 32, 32, 32, 32, 32, 32, 32, 32, 117, 105, 110, 116, 56, 32, 97, 100, 118, 95, 102, 97, 108, 108, 98, 97, 99, 107, 95, 99, 111, 100, 101,
   59, 32, 47, 47, 32, 75, 101, 121, 32, 50, 53, 10, 32, 32, 32, 32, 32, 32, 32, 32, 32, 32, 32, 32, 125, 10, 32, 32, 32, 32, 32, 32, 32, 32, 125,
   10, 32, 32, 32, 32, 125, 10, 10, 32, 32, 32, 32, 47, 47, 32, 68, 121, 110, 97, 109, 105, 99, 32, 65, 114, 114, 97, 121, 32, 38, 32, 69, 79, 70,
   10, 32, 32, 32, 32, 117, 105, 110, 116, 49, 54, 32, 100, 121, 110, 97, 109, 105, 99, 95, 108, 101, 110, 59, 10, 32, 32, 32, 32, 64, 99, 111, 117,
   110, 116, 40, 100, 121, 110, 97, 109, 105, 99, 95, 108, 101, 110, 41, 10, 32, 32, 32, 32, 117, 105, 110, 116, 56, 32, 100, 121, 110, 97, 109,
   105, 99, 95, 98, 121, 116, 101, 115, 91, 93, 59, 10, 10, 32, 32, 32, 32, 117, 105, 110, 116, 56, 32, 115, 116, 114, 95, 99, 111, 117, 110, 116,
   59, 10, 32, 32, 32, 32, 64, 99, 111, 117, 110, 116, 40, 115, 116, 114, 95, 99, 111, 117, 110, 116, 41, 10, 32, 32, 32, 32, 115, 116, 114, 105,
   110, 103, 32, 100, 121, 110, 97, 109, 105, 99, 95, 115, 116, 114, 105, 110, 103, 115, 91, 93, 32, 112, 114, 101, 102, 105, 120, 32, 117, 105,
   110, 116, 56, 59, 10, 10, 32, 32, 32, 32, 47, 47, 32, 70, 108, 111, 97, 116, 32, 76, 111, 103, 105, 99, 10, 32, 32, 32, 32, 64, 101, 120, 112,
   114, 40, 112, 111, 115, 105, 116, 105, 111, 110, 46, 120, 32, 62, 32, 49, 48, 46, 48, 41, 10, 32, 32, 32, 32, 98, 111, 111, 108, 32, 105, 115,
   95, 102, 97, 114, 95, 120, 59, 10, 10, 32, 32, 32, 32, 64, 101, 120, 112, 114, 40, 112, 111, 115, 105, 116, 105, 111, 110, 46, 121, 32, 61, 61,
   32, 48, 46, 48, 41, 10, 32, 32, 32, 32, 98, 111, 111, 108, 32, 105, 115, 95, 103, 114, 111, 117, 110, 100, 101, 100, 59, 10, 10, 32, 32, 32, 32,
   64, 101, 111, 102, 10, 32, 32, 32, 32, 117, 105, 110, 116, 56, 32, 114, 101, 115, 116, 95, 111, 102, 95, 115, 116, 114, 101, 97, 109, 91, 93, 59,
   10, 125, 10].map (BitVec.ofNat 8)

/-- The doubles the literals of the file stand for. -/
def ksDbl (t : List Byte) : Word :=
  (([(word "0.1", 0x3FB999999999999A), (word "5.0", 0x4014000000000000), (word "2.0", 0x4000000000000000), (word "0.5", 0x3FE0000000000000), (word "0.0", 0), (word "10.0", 0x4024000000000000), (word "100.0", 0x4059000000000000), (word "20.0", 0x4034000000000000), (word "400.0", 0x4079000000000000)] : List (List Byte × Word)).lookup t).getD 0
def ksP : PEnv := ⟨ksDbl, Demo.fl⟩

/-- The names of the image. -/
def ksTab : List (List Byte) :=
  ["x", "magic", "flags_a", "flag_b", "val_c", "timestamp", "position", "position.x", "position.y", "position.z", "waypoints", "waypoints.x", "waypoints.y", "waypoints.z", "matrix", "points",
   "name", "status", "confidence", "error_code", "reason", "percentage", "temperature", "val_add", "val_sub", "val_mul", "val_div", "year",
   "poly_val", "spline_val", "expr_val", "bit_packed.a_3bits", "bit_packed.b_5bits", "bit_packed.c_4bits", "bit_packed.d_aligned", "has_extra", "extra_data", "adv_mode",
   "adv_simple_val", "adv_has_details", "adv_details", "adv_fallback_code", "dynamic_len", "dynamic_bytes", "str_count", "dynamic_strings", "is_far_x", "is_grounded", "rest_of_stream", "KitchenSink"].map word

/-- The code up to the points of the spline. -/
def ksCode1 : List Byte :=
  [7, 49, 0, 2, 18, 1, 0, 1, 32, 2, 0, 1, 34, 3, 0, 1, 33, 4, 0, 6, 23, 5, 0, 3, 6, 0, 24, 7, 0, 24, 8, 0, 24, 9, 0, 4, 52, 10, 0, 4, 0, 0, 0,
   3, 10, 0, 24, 11, 0, 24, 12, 0, 24, 13, 0, 4, 56, 52, 14, 0, 4, 0, 0, 0, 16, 14, 0, 56, 53, 15, 0, 17, 15, 0, 56, 48, 16, 0, 32, 0, 16, 17,
   0, 75, 16, 2, 0, 0, 1, 81, 17, 0, 19, 0, 0, 0, 16, 18, 0, 82, 41, 0, 0, 0, 17, 19, 0, 49, 20, 0, 82, 30, 0, 0, 0, 2, 0, 49, 0, 0, 0, 0, 0,
   0, 0, 0, 0, 0, 0, 0, 0, 0, 0, 1, 0, 0, 0, 0, 0, 0, 0, 8, 0, 0, 0, 16, 21, 0, 66, 16, 0, 100, 67, 154, 153, 153, 153, 153, 153, 185, 63, 0,
   0, 0, 0, 0, 0, 0, 0, 17, 22, 0, 69, 10, 0, 0, 0, 0, 0, 0, 0, 16, 23, 0, 70, 5, 0, 0, 0, 0, 0, 0, 0, 16, 24, 0, 71, 2, 0, 0, 0, 0, 0, 0, 0,
   16, 25, 0, 72, 4, 0, 0, 0, 0, 0, 0, 0, 16, 26, 0, 69, 108, 7, 0, 0, 0, 0, 0, 0, 17, 27, 0, 76, 3, 0, 0, 0, 0, 0, 0, 20, 64, 0, 0, 0, 0, 0,
   0, 0, 64, 0, 0, 0, 0, 0, 0, 224, 63, 16, 28, 0]

/-- The spline with its three points. -/
def ksSpline : List Byte :=
  [77, 3, 0, 0, 0, 0, 0, 0, 0, 0, 0, 0, 0, 0, 0, 0, 0, 0, 0, 0, 0, 0, 0, 0, 36, 64, 0, 0, 0, 0, 0, 0, 89, 64, 0, 0, 0, 0, 0, 0, 52, 64, 0, 0,
   0, 0, 0, 0, 121, 64]

/-- The code from the field behind the spline to the computed field `is_far_x`. -/
def ksCode2 : List Byte :=
  [96, 23, 0, 96, 24, 0, 114, 100, 120, 30, 0, 101, 16, 3, 37, 0, 37, 2, 32, 31, 0, 3, 32, 32, 0, 5, 32, 33, 0, 4, 36, 1, 32, 34, 0, 8, 38, 4,
   26, 35, 0, 96, 35, 0, 80, 8, 0, 0, 0, 49, 36, 0, 82, 0, 0, 0, 0, 73, 183, 29, 193, 4, 255, 255, 255, 255, 255, 255, 255, 255, 3, 16, 37, 0,
   81, 37, 0, 35, 0, 0, 0, 17, 38, 0, 82, 57, 0, 0, 0, 26, 39, 0, 96, 39, 0, 80, 8, 0, 0, 0, 49, 40, 0, 82, 3, 0, 0, 0, 16, 41, 0, 82, 30, 0,
   0, 0, 2, 0, 65, 0, 0, 0, 0, 0, 0, 0, 0, 0, 0, 0, 0, 0, 0, 0, 1, 0, 0, 0, 0, 0, 0, 0, 8, 0, 0, 0, 17, 42, 0, 59, 43, 0, 42, 0, 16, 43, 0, 56,
   16, 44, 0, 59, 45, 0, 44, 0, 49, 45, 0, 56, 96, 7, 0, 97, 0, 0, 0, 0, 0, 0, 36, 64, 148, 100, 120, 46, 0, 101, 26]

/-- The code behind the first instruction of the computed field `is_grounded`. -/
def ksCode3 : List Byte :=
  [97, 0, 0, 0, 0, 0, 0, 0, 0, 146, 100, 120, 47, 0, 101, 26, 58, 56, 0, 16, 48, 0, 56]

/-- **The compiler miscompiles the example's own schema.** The field behind the spline, `@spline(…) uint8 spline_val`, has the key of `has_extra`, and
`@expr(position.y == 0.0) bool is_grounded` begins by loading `matrix`: dead-string elimination renumbered neither, having taken bytes of the
spline for a constant and the type of the emitted `is_far_x` for a field. -/
theorem C62_false_example :
    compile ksP 2000 ksSrc = .image (writeImage ksTab (ksCode1 ++ ksSpline ++ [0x10, 35, 0] ++ ksCode2 ++ [0x60, 14, 0] ++ ksCode3)) ∧
    ksTab[35]? = some (word "has_extra") ∧ ksTab[29]? = some (word "spline_val") ∧
    ksTab[14]? = some (word "matrix") ∧ ksTab[8]? = some (word "position.y") := by
  refine ⟨by decide +kernel, by decide +kernel, by decide +kernel, by decide +kernel, by decide +kernel⟩

end Cnd
