notation "ℝ" => Float
notation "ℕ" => Nat
notation "ℤ" => Int
instance : NatCast Float := ⟨Float.ofNat⟩
instance : IntCast Float := ⟨Float.ofInt⟩
def fpow (x : Float) (n : Nat) : Float := match n with | 0 => 1 | n+1 => fpow x n * x
instance instPowFN : Pow Float Nat := ⟨fpow⟩
unsafe def decEqImpl (a b : Float) : Decidable (a = b) := if a == b then isTrue lcProof else isFalse lcProof
@[implemented_by decEqImpl] opaque decEqF (a b : Float) : Decidable (a = b) := Classical.propDecidable _
instance : DecidableEq Float := decEqF
def toInt (x : Float) : Int := if x < 0 then - Int.ofNat ((-x).toUInt64.toNat) else Int.ofNat x.toUInt64.toNat
def ffloor (x : Float) : Int := toInt x.floor
def fceil (x : Float) : Int := toInt x.ceil
notation "⌊" x "⌋" => ffloor x
notation "⌈" x "⌉" => fceil x
class Abs' (α : Type) where abs' : α → α
instance : Abs' Float := ⟨Float.abs⟩
instance : Abs' Int := ⟨fun x => x.natAbs⟩
macro:max atomic("|" noWs) a:term noWs "|" : term => `(Abs'.abs' $a)
namespace Real
def sqrt (x : Float) := Float.sqrt x
def logb (b x : Float) := if b = 2 then Float.log2 x else if b = 10 then Float.log10 x else Float.log x / Float.log b
def pi : Float := 3.14159265358979323846
def log := Float.log
def cos := Float.cos
def sin := Float.sin
def exp := Float.exp
end Real
prefix:100 "√" => Real.sqrt
def List.dedup' {α} [BEq α] : List α → List α
  | [] => []
  | x :: xs => if xs.contains x then dedup' xs else x :: dedup' xs
def List.dedup {α} [BEq α] (l : List α) := List.dedup' l
def List.scanl' {α β} (f : β → α → β) (b : β) : List α → List β
  | [] => [b]
  | x :: xs => b :: List.scanl' f (f b x) xs
def Nat.choose : Nat → Nat → Nat
  | _, 0 => 1
  | 0, _+1 => 0
  | n+1, k+1 => Nat.choose n k + Nat.choose n (k+1)
instance : Inv Float := ⟨fun x => 1/x⟩
notation "π" => Real.pi
instance : HPow Float Int Float := ⟨fun x n => if n ≥ 0 then fpow x n.toNat else 1 / fpow x (-n).toNat⟩
