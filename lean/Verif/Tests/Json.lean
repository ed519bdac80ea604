import Verif.Props.Json

/-! The unit tests of the repository replayed on the model. These are tests of the model, not proofs: no property rests on
them. Each is preceded by the place of the source literal in /repo/src. -/

namespace Verif.Json

-- json/mod.rs:95
#guard minifyStr "\n".toList = "".toList

-- json/mod.rs:103
#guard minifyStr "\n            {\n              \"test\": \"\\\" test2\",\n              \"test2\": \"\",\n              \"test3\": \" \"\n            }\n        ".toList = "{\"test\":\"\\\" test2\",\"test2\":\"\",\"test3\":\" \"}".toList


end Verif.Json
