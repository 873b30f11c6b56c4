import Verif.Model.Query
/-! # doc.go:33-37: documents made from a string -/

namespace Dupi

/-- doc.go:33-37: `Start` and `End` stay 0; the bytes of a string are a slice that is not nil. -/
def newDoc (path body : Bytes) : Doc := ⟨path, 0, 0, some body⟩

end Dupi
