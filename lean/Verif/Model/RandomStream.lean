import Mathlib.Logic.Function.Iterate
import Mathlib.Data.Nat.Basic

/-!
# The random numbers of the processes

Source: `problems/random.cc:64-74`, `problems/random_permeability.hh:109`.

`std::default_random_engine` is chosen by the implementation.  In libstdc++ it is `std::minstd_rand0`, the linear congruential engine
with multiplier 16807, increment 0 and modulus 2^31 - 1, which is transcribed here.
-/

namespace Verif.RandomStream

/-- Modulus of `std::minstd_rand0`. -/
def modulus : ℕ := 2147483647

/-- Multiplier of `std::minstd_rand0`. -/
def multiplier : ℕ := 16807

/-- `linear_congruential_engine(seed)` with increment 0: a seed congruent to 0 is replaced by 1. -/
def engineSeed (seed : ℕ) : ℕ := if seed % modulus = 0 then 1 else seed % modulus

/-- One step of the engine; the new state is the number returned. -/
def engineNext (x : ℕ) : ℕ := multiplier * x % modulus

/-- The `n`-th number drawn from an engine created with `seed`. -/
def number (seed n : ℕ) : ℕ := engineNext^[n + 1] (engineSeed seed)

/-- random.cc:64-66, 74: the seed is the rank in the global communicator plus one. -/
def processSeed (globalRank : ℕ) : ℕ := globalRank + 1

/-- random_permeability.hh:109: the `n`-th number drawn by a process. -/
def processNumber (globalRank n : ℕ) : ℕ := number (processSeed globalRank) n

end Verif.RandomStream
