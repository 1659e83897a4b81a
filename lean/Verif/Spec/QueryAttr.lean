import Verif.Spec.Query
/-
The common queries with an attribute or a child in brackets, as they are written.
-/
namespace Amara

/-- `//m[@k='v']` -/
def withAttrText (m k v : Str) : Str := ['/', '/'] ++ (m ++ (['[', '@'] ++ (k ++ (['=', '\''] ++ (v ++ ['\'', ']'])))))

/-- `//m[c]` -/
def withChildText (m c : Str) : Str := ['/', '/'] ++ (m ++ (['['] ++ (c ++ [']'])))

/-- `//m/@k` -/
def attrsOfText (m k : Str) : Str := ['/', '/'] ++ (m ++ (['/', '@'] ++ k))

/-- `//m/c` -/
def childrenOfText (m c : Str) : Str := ['/', '/'] ++ (m ++ (['/'] ++ c))

/-- `//@k` -/
def attrsText (k : Str) : Str := ['/', '/', '@'] ++ k

/-- `//@k[.='v']` -/
def attrsEqText (k v : Str) : Str := ['/', '/', '@'] ++ (k ++ (['[', '.', '=', '\''] ++ (v ++ ['\'', ']'])))

/-- There is an element called `m` with the attribute `k` of value `v` at this position. -/
def Node.HasAttr (doc : Node) (m k v : Str) (p : Path) : Prop := ∃ as cs, doc.at? p = some (.elem m as cs) ∧ (k, v) ∈ as

end Amara
