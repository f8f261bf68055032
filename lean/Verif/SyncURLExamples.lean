import Verif.SyncURLProps
/-! A case of C113, apart as it is heavy. -/
namespace Verif.SyncURL

/-- A token that would add a parameter if it were not escaped. -/
example : readQuery (query (bytes "s1&filter=x y%") false true) = some [(bytes "timeout", bytes "30000"), (bytes "since", bytes "s1&filter=x y%"),
    (bytes "set_presence", bytes "offline"),
    (bytes "filter", bytes "{\"presence\":{\"not_types\":[\"*\"]},\"room\":{\"rooms\":[],\"timeline\":{\"limit\":50}}}")] := by
  decide +kernel

end Verif.SyncURL
