import Verif.RoundingMetrics

/-!
# Mutual information in machine arithmetic (`stag_lib/cluster.cpp:465-516`)

Every operation on `double`s, and every conversion of an integer, is followed by a rounding `fl`; `lg` is the library's `log2`,
which returns a `double`.
-/

namespace Stag

/-- `entropy` (`stag_lib/cluster.cpp:465-484`), rounded.  `order` is the iteration order of the `unordered_map`. -/
noncomputable def entropyFl (fl lg : ℝ → ℝ) (order l : List Int) : ℝ :=
  order.foldl (fun e x =>
    if 0 < clusterSizes l x then
      fl (e + fl (fl (fl (clusterSizes l x : ℝ) / fl (l.length : ℝ)) * lg (fl (fl (l.length : ℝ) / fl (clusterSizes l x : ℝ)))))
    else e) 0

/-- `stag::mutual_information` (`stag_lib/cluster.cpp:486-507`), rounded.  As in `ariCountsInt`, the loop of
`contingency_table` over the points counts with an `int` (line 417), which overflows from `2^31` points on. -/
noncomputable def mutualInformationFl (fl lg : ℝ → ℝ) (gt lab : List Int) : Outcome ℝ := do
  let gs := clusterSizes gt
  let ls := clusterSizes lab
  let t ← contingencyTable gt lab
  if 2 ^ 31 ≤ gt.length then .ub
  else
    let idx := List.range t.1.toNat
    let n := fl (lab.length : ℝ)
    .ok ((idx.flatMap (fun i => idx.map (fun j => (i, j)))).foldl (fun mi (p : Nat × Nat) =>
      if 0 < t.2 p.1 p.2 then
        fl (mi + fl (fl (fl (t.2 p.1 p.2 : ℝ) / n) *
          lg (fl (fl (n * fl (t.2 p.1 p.2 : ℝ)) / fl (fl (gs p.1 : ℝ) * fl (ls p.2 : ℝ))))))
      else mi) 0)

/-- `stag::normalised_mutual_information` (`stag_lib/cluster.cpp:509-516`), rounded. -/
noncomputable def normalisedMutualInformationFl (fl lg : ℝ → ℝ) (orderGt orderLab gt lab : List Int) : Outcome (XReal ℝ) := do
  let mi ← mutualInformationFl fl lg gt lab
  .ok ((XReal.div (.fin mi) (.fin (fl (fl (entropyFl fl lg orderGt gt + entropyFl fl lg orderLab lab) / 2)))).round fl)

end Stag
