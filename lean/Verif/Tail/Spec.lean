import Mathlib.Analysis.SpecialFunctions.Log.Basic

/-! The distances of neighbouring sample points on a logarithmic scale, which determine how precise an
exponent estimated from function values can be. -/

namespace Pacal
namespace Tail

open Real

/-- tails are sampled at 300 points `10^1, …, 10^100`: neighbours are a factor `10^(99/299)` apart -/
noncomputable abbrev tailStep : ℝ := 99 / 299 * log 10

/-- near a pole at 0 the distances `10^-1, …, 10^-10` are used, near any other `10^-1, 10^(-1-2/3), …, 10^-7` -/
noncomputable def step (x : ℝ) : ℝ := open Classical in if x = 0 then log 10 else 2 / 3 * log 10

end Tail
end Pacal
