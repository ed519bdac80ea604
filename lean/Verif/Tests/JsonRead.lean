import Verif.Props.JsonRead

/-! The unit tests of the repository replayed on the model. These are tests of the model, not proofs: no property rests on
them. Each is preceded by the place of the source literal in /repo/src. -/

namespace Verif.JsonRead

-- json/mod.rs:78, tests/files/test.json read whole into a buffer of 32 bytes, twice, and once more for the end
#guard delivered (runReads (minifyFromRead [.chunk ("{\n  \"test\": \"\\\" test2\",\n  \"test2\": \"\",\n  \"test3\": \" \"\n}".toUTF8.toList)]) [32, 32, 32, 32]).1 = "{\"test\":\"\\\" test2\",\"test2\":\"\",\"test3\":\" \"}".toUTF8.toList


end Verif.JsonRead
