import Verif.Model.CppSim

/-!
# Statistics of the C++ engine
-/

namespace UX.Cpp.CWorld

/-- A sum in the order of ids, starting with `s` (traffi.cpp:1571–1586, 1619–1624). -/
def sumFrom (fl : ℚ → ℚ) (f : ℕ → ℚ) (k : ℕ) (s : ℚ) : ℚ := (List.range k).foldl (fun s i => fl (s + f i)) s

/-- `World::ave_v_sum` (traffi.cpp:1571–1575). -/
def aveVSum (W : CWorld) : ℚ := sumFrom W.g.fl (fun l => (W.link l).aveV) W.g.nLinks 0

/-- `World::ave_vratio_sum` (traffi.cpp:1576–1580). -/
def aveVrSum (W : CWorld) : ℚ := sumFrom W.g.fl (fun l => (W.link l).aveVr) W.g.nLinks 0

/-- `World::stat_sample_count` (traffi.cpp:1581–1586). -/
def sampleCount (W : CWorld) : ℚ :=
  sumFrom W.g.fl (fun n => (W.node n).stat) W.g.nNodes
    (sumFrom W.g.fl (fun l => (W.link l).stat) W.g.nLinks 0)

/-- The average speed of `print_simple_results` (traffi.cpp:1597–1599, 1202) and of the wrapper
(uxsim_cpp_wrapper.py:1300–1302). -/
def avePrinted (W : CWorld) : ℚ := if 0 < W.sampleCount then W.g.fl (W.aveVSum / W.sampleCount) else 0

/-- The average speed ratio of `print_simple_results` (traffi.cpp:1597–1600, 1203). -/
def ratioPrinted (W : CWorld) : ℚ := if 0 < W.sampleCount then W.g.fl (W.aveVrSum / W.sampleCount) else 0

/-- `platoon_count` of `print_progress_line` (traffi.cpp:1617–1620). -/
def platoonCount (W : CWorld) : ℚ := sumFrom W.g.fl (fun l => ((W.link l).vehs.length : ℚ)) W.g.nLinks 0

/-- `v_sum` of `print_progress_line` (traffi.cpp:1618–1624). -/
def speedSum (W : CWorld) : ℚ :=
  (List.range W.g.nLinks).foldl (fun s l => (W.link l).vehs.foldl (fun s v => W.g.fl (s + (W.veh v).v)) s) 0

/-- `sum_vehs` of `print_progress_line` (traffi.cpp:1625). -/
def progressVehs (W : CWorld) : ℚ := W.g.fl (W.platoonCount * W.g.deltaN)

/-- `avev` of `print_progress_line` (traffi.cpp:1626). -/
def progressSpeed (W : CWorld) : ℚ := if 0 < W.platoonCount then W.g.fl (W.speedSum / W.platoonCount) else 0

end UX.Cpp.CWorld
