import Verif.Props.JsonText
/-!
# Texts of JSON, computed
-/

namespace Verif.JsonText
open Verif.Py Verif.Value Verif.Schema Verif.Json

example : String.ofList (text someFloats .default 0 sampleTree) =
    "{\"a\\\"\\u00e9\\ud83d\\ude00\": [-12, 5.2, null], \"b\": {}, \"c\": true, \"d\": [], \"e\": \"x\\n\\u0001\"}" := by decide +kernel

example : readText someFloats plainHook (text someFloats .indented 0 sampleTree) () = .ok (sampleTree, ()) := by decide +kernel

/-- of equal keys the last counts; a comma too many, a second value, a raw line break in a string and a byte order mark are refused -/
example : readText someFloats plainHook "{\"a\": 1, \"a\": 2}".toList () = .ok (mkDict [("a", .int 2)], ()) ∧
    readText someFloats plainHook "[1,]".toList () = .error (.raised .valueError) ∧ readText someFloats plainHook "1 2".toList () = .error (.raised .valueError) ∧
    readText someFloats plainHook "\"\n\"".toList () = .error (.raised .valueError) ∧ readText someFloats plainHook "\uFEFF1".toList () = .error (.raised .valueError) := by decide +kernel

end Verif.JsonText
