/-! Specification: Gray-code index sequences. -/
namespace Verif

/-- The patterns visited when the entries with the given indices are flipped one after another. -/
def flipVisits : List Nat → List Bool → List (List Bool)
  | [], p => [p]
  | i :: is, p => p :: flipVisits is (p.set i (!p.getD i false))

/-- `idx` is a Gray code for `n` bits: flipping the bits `idx` one by one, starting from all
unset, visits every `n`-bit pattern exactly once. -/
structure IsGrayCode (n : Nat) (idx : List Nat) : Prop where
  range : ∀ i ∈ idx, i < n
  once : (flipVisits idx (List.replicate n false)).Nodup
  all : ∀ p : List Bool, p.length = n → p ∈ flipVisits idx (List.replicate n false)

/-- The reflected binary Gray code, as an example of such a sequence. -/
def reflectedGray : Nat → List Nat
  | 0 => []
  | n + 1 => reflectedGray n ++ n :: reflectedGray n

end Verif
