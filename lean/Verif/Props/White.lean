import Verif.Model.Expat
import Verif.Spec.White
/-
C43: the characters at which names from full XML are split are the white space of Python, and no others.
-/
namespace Amara

/-- C43: a character splits a name exactly if it is one of the twenty-nine.  (So `NoSpace`, in the statement of C43_local_names, means that none of
these is in the string.) -/
theorem C43_white_space (c : Char) : isPySpace c = true ↔ c ∈ whiteSpace := by
  constructor
  · intro h
    simp only [isPySpace, inRanges, List.any_cons, List.any_nil, Bool.or_false, Bool.or_eq_true, Bool.and_eq_true, decide_eq_true_eq] at h
    have hc : c = Char.ofNat c.toNat := (Char.ofNat_toNat c).symm
    have key : ∀ k, c.toNat = k → Char.ofNat k ∈ whiteSpace → c ∈ whiteSpace := fun k hk hm => by rw [hc, hk]; exact hm
    have h' : c.toNat = 9 ∨ c.toNat = 10 ∨ c.toNat = 11 ∨ c.toNat = 12 ∨ c.toNat = 13 ∨ c.toNat = 28 ∨ c.toNat = 29 ∨ c.toNat = 30 ∨ c.toNat = 31 ∨
        c.toNat = 32 ∨ c.toNat = 133 ∨ c.toNat = 160 ∨ c.toNat = 5760 ∨ c.toNat = 8192 ∨ c.toNat = 8193 ∨ c.toNat = 8194 ∨ c.toNat = 8195 ∨
        c.toNat = 8196 ∨ c.toNat = 8197 ∨ c.toNat = 8198 ∨ c.toNat = 8199 ∨ c.toNat = 8200 ∨ c.toNat = 8201 ∨ c.toNat = 8202 ∨ c.toNat = 8232 ∨
        c.toNat = 8233 ∨ c.toNat = 8239 ∨ c.toNat = 8287 ∨ c.toNat = 12288 := by omega
    rcases h' with h | h | h | h | h | h | h | h | h | h | h | h | h | h | h | h | h | h | h | h | h | h | h | h | h | h | h | h | h <;>
      exact key _ h (by decide)
  · intro h
    revert h
    have : ∀ x ∈ whiteSpace, isPySpace x = true := by decide
    exact this c

example : ' ' ∈ whiteSpace ∧ 'a' ∉ whiteSpace := by decide

end Amara
