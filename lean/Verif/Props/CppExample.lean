import Verif.Proofs.CppInvBuild

/-!
# A small run of the C++ engine, used as the concrete case of several theorems

Two links of 300 m in a row, five vehicles. `cppEx k` is the world before time step `k`.
-/

namespace UX.Cpp
open CWorld

def cppExArgs : LinkArgs :=
  { vmax := 20, kappa := 1/5, len := 300, lanes := 1, mergePri := 1, capOut := -1, capIn := -1,
    group := [0], rng := fun _ => 0 }

def cppEx0 : CWorld :=
  let W0 := CWorld.empty id 100 5 1 10 (1/2) 0 true false false false true 1
  let W1 := (((W0.addNodeWith (0, 0) [0] 0 (-1) 0 (fun _ => 0)).addNodeWith (0, 0) [0] 0 (-1) 0
    (fun _ => 0))).addNodeWith (0, 0) [0] 0 (-1) 0 (fun _ => 0)
  let W2 := (W1.addLink 0 1 cppExArgs).addLink 1 2 cppExArgs
  (((((W2.addVehicle 0 0 2 []).addVehicle 0 0 2 []).addVehicle 5 0 2 []).addVehicle 5 0 2
    []).addVehicle 80 0 2 []).initAdj

def cppEx (k : ℕ) : CWorld := (cppEx0.mainLoop (fun _ W => W.seqSched) k).1

theorem seqSched_valid (t : ℕ) (V : CWorld) : ((fun (_ : ℕ) (W : CWorld) => W.seqSched) t V).Valid V :=
  ⟨List.Perm.refl _, List.Perm.refl _, List.Perm.refl _, List.Perm.refl _, List.Perm.refl _⟩

theorem cppEx0_reach : CReach cppEx0 := by
  refine CReach.step ?_ (CStep.init _)
  refine CReach.step ?_ (CStep.vehicle _ 80 0 2 [] (by decide) (by decide))
  refine CReach.step ?_ (CStep.vehicle _ 5 0 2 [] (by decide) (by decide))
  refine CReach.step ?_ (CStep.vehicle _ 5 0 2 [] (by decide) (by decide))
  refine CReach.step ?_ (CStep.vehicle _ 0 0 2 [] (by decide) (by decide))
  refine CReach.step ?_ (CStep.vehicle _ 0 0 2 [] (by decide) (by decide))
  refine CReach.step ?_ (CStep.link _ 1 2 cppExArgs (by decide) (by decide) (by decide) (by decide))
  refine CReach.step ?_ (CStep.link _ 0 1 cppExArgs (by decide) (by decide) (by decide) (by decide))
  refine CReach.step ?_ (CStep.node _ _ [0] 0 (-1) 0 (fun _ => 0) 1 rfl)
  refine CReach.step ?_ (CStep.node _ _ [0] 0 (-1) 0 (fun _ => 0) 1 rfl)
  refine CReach.step ?_ (CStep.node _ _ [0] 0 (-1) 0 (fun _ => 0) 1 rfl)
  exact CReach.empty id 100 5 1 10 (1/2) 0 true false false false true 1

theorem cppEx_reach (k : ℕ) : CReach (cppEx k) :=
  CReach.step cppEx0_reach (CStep.run _ k _ seqSched_valid)

end UX.Cpp
