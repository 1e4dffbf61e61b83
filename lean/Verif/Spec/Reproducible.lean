import Verif.Spec.EndToEnd
/-! Two runs of the dictionary builder. -/
namespace Verif.Spec
open Verif.Model

/-- The same compilers: the crates `yada`, `encoding_rs` and `csv` do the same in both. The features, the compression, the order in which hash maps iterate and the pieces in which data
is written may differ. -/
structure SameCompilers (env env' : BuildEnv) : Prop where
  yada : env'.yada = env.yada
  decode : env'.decode = env.decode
  csv : env'.csv = env.csv

/-- The same builder: same compilers, and the same format and compression of the files. Hash maps may iterate in another order, and data may be written in other pieces. -/
structure SameBuilder (env env' : BuildEnv) : Prop extends SameCompilers env env' where
  feature : env'.feature = env.feature
  flate : env'.flate = env.flate
  format : env'.format = env.format

/-- The seven files of a dictionary directory. -/
def dictionaryFiles : List String := ["char_def.bin", "unk.bin", "dict.da", "dict.vals", "dict.words", "dict.wordsidx", "matrix.mtx"]

end Verif.Spec
