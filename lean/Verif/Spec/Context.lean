import Verif.Spec.MicroXml
/-
Specification: beginnings of documents, used to say where in a document something happens.
-/
namespace Amara

/-- The events of a run of text: none if it is empty. -/
def textEvents (s : Str) : List Event := if s = [] then [] else [.chars s]

/-- `Open stk evs w`: the text `w` is the beginning of a document, up to the end of a tag, with the
elements `stk` still open (innermost first, at least one), and `evs` are the events it denotes. -/
inductive Open : List Str → List Event → Str → Prop
  | root {n kvs wa wb w0 w1} : Space wb → IsName n → IsAttrs kvs wa → Space w0 → Space w1 →
      Open [n] [.start n (dictOf kvs) []] (wb ++ '<' :: (w0 ++ (n ++ (wa ++ (w1 ++ ['>'])))))
  | down {stk evs w s raw n kvs wa w0 w1} : Open stk evs w → Spells TextLit s raw →
      IsName n → IsAttrs kvs wa → Space w0 → Space w1 →
      Open (n :: stk) (evs ++ textEvents s ++ [.start n (dictOf kvs) stk.reverse])
        (w ++ (raw ++ '<' :: (w0 ++ (n ++ (wa ++ (w1 ++ ['>']))))))
  | up {n stk evs w s raw w2 w3 w4} : Open (n :: stk) evs w → stk ≠ [] → Spells TextLit s raw →
      IsName n → Space w2 → Space w3 → Space w4 →
      Open stk (evs ++ textEvents s ++ [.stop n stk.reverse])
        (w ++ (raw ++ '<' :: (w2 ++ '/' :: (w3 ++ (n ++ (w4 ++ ['>']))))))

/-- `TagAt stk evs w`: the text `w` is the beginning of a document, up to and including the '<' of a
tag; `stk` (possibly empty) and `evs` as in `Open`. -/
inductive TagAt : List Str → List Event → Str → Prop
  | root {wb} : Space wb → TagAt [] [] (wb ++ ['<'])
  | inside {stk evs w s raw} : Open stk evs w → Spells TextLit s raw →
      TagAt stk (evs ++ textEvents s) (w ++ (raw ++ ['<']))

/-- `BadRef b`: the text `b` starts with a reference that is complete, or cannot be completed, and
denotes no legal character: an unknown name, a number that is missing, that is not hexadecimal, or
that is not the number of a legal character. -/
inductive BadRef : Str → Prop
  | name {n t} : (∀ c ∈ n, c.isAlphanum = true) → (∀ p ∈ namedRefs, p.1.toList ≠ n) →
      BadRef ('&' :: (n ++ ';' :: t))
  | number {ds t} : (∀ d ∈ ds, (hexDigit? d).isSome) → (ds = [] ∨ ¬ LegalCode (hexValue ds)) →
      BadRef ('&' :: '#' :: 'x' :: (ds ++ ';' :: t))
  | digit {ds c t} : (∀ d ∈ ds, (hexDigit? d).isSome) → hexDigit? c = none → c ≠ ';' →
      BadRef ('&' :: '#' :: 'x' :: (ds ++ c :: t))

/-- `Malformed b`: the text `b` starts with '&' followed by something that is neither a run of ASCII
letters and digits closed by ';' nor '#x'. -/
inductive Malformed : Str → Prop
  | name {n c t} : (∀ c ∈ n, c.isAlphanum = true) → c.isAlphanum = false → c ≠ ';' →
      (n = [] → c ≠ '#') → Malformed ('&' :: (n ++ c :: t))
  | number {c t} : c ≠ 'x' → Malformed ('&' :: '#' :: c :: t)

/-- The beginning of a reference, not yet complete. -/
inductive PartialRef : Str → Prop
  | name {n} : (∀ c ∈ n, c.isAlphanum = true) → PartialRef ('&' :: n)
  | hash : PartialRef ['&', '#']
  | number {ds} : (∀ d ∈ ds, (hexDigit? d).isSome) → PartialRef ('&' :: '#' :: 'x' :: ds)

/-- The beginning of a tag from just after its '<', not reaching its '>', and ending neither just
after the '=' of an attribute nor inside an attribute value. -/
inductive PartialTag : Str → Prop
  | space {w0} : Space w0 → PartialTag w0
  | name {w0 n} : Space w0 → IsName n → PartialTag (w0 ++ n)
  | attrs {w0 n kvs wa w1} : Space w0 → IsName n → IsAttrs kvs wa → Space w1 →
      PartialTag (w0 ++ (n ++ (wa ++ w1)))
  | attr {w0 n kvs wa w1 k w2} : Space w0 → IsName n → IsAttrs kvs wa → w1 ≠ [] → Space w1 →
      IsName k → Space w2 → PartialTag (w0 ++ (n ++ (wa ++ (w1 ++ (k ++ w2)))))
  | slash {w2 w3} : Space w2 → Space w3 → PartialTag (w2 ++ '/' :: w3)
  | endName {w2 w3 n w4} : Space w2 → Space w3 → IsName n → Space w4 →
      PartialTag (w2 ++ '/' :: (w3 ++ (n ++ w4)))

end Amara
