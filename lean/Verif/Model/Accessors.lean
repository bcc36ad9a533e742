import Verif.Model.Demos

/-!
# The functions which return fields: `get_velocity`, `get_curl`, `get_divergence`, `get_rho` of the periodic solvers

`get_velocity`, `set_velocity`, `get_divergence` and `get_pressure` of NS are in `Model/Demos.lean` and `Model/Periodic.lean`.
-/

namespace SpectralDNS.Periodic

variable {ι X : Type*}

/-- solvers/NS.py:86-89 `get_curl`; `w` is the previous content of the work array. -/
noncomputable def get_curl (w : SArr 3 ι) (T : Space ι X) (K : Fin 3 → ι → ℝ) (U_hat : SArr 3 ι) : PArr 3 X := compute_curl w U_hat T K

/-- solvers/NS2D.py:20-24 `get_curl`; `W_hat` is set to zero before `cross2`. -/
noncomputable def get_curl2D (T : Space ι X) (K : Fin 2 → ι → ℝ) (U_hat : SArr 2 ι) : X → ℝ := T.backward (cross2_2d (fun _ => 0) K U_hat)

/-- solvers/VV.py:69-72 `get_velocity`; `w` is the previous content of the work array. -/
noncomputable def get_velocityVV (w : SArr 3 ι) (T : Space ι X) (K : Fin 3 → ι → ℝ) (W_hat : SArr 3 ι) : PArr 3 X :=
  compute_velocity w W_hat T (K_over_K2 K)

/-- solvers/VV.py:80-83 `get_curl`. -/
def get_curlVV (T : Space ι X) (W_hat : SArr 3 ι) : PArr 3 X := T.vbackward W_hat

/-- solvers/VV.py:74-78 `get_divergence`: the returned array and the array `U_hat` of the context, which is overwritten. -/
noncomputable def get_divergenceVV (T : Space ι X) (K : Fin 3 → ι → ℝ) (U_hat W_hat : SArr 3 ι) : (X → ℝ) × SArr 3 ι :=
  (T.backward (divHatVV K U_hat W_hat), cross2_3d U_hat K W_hat)

/-- solvers/MHD.py:84-87 `get_divergence`; `U_hat` are the first three components of `UB_hat` (MHD.py:64). -/
noncomputable def get_divergenceMHD (T : Space ι X) (K : Fin 3 → ι → ℝ) (UB_hat : SArr 3 ι × SArr 3 ι) : X → ℝ := get_divergence T K UB_hat.1

/-- `MHDFile.update_components` (solvers/MHD.py:79-82): the array `UB` which is written to the results file. -/
def update_componentsMHD (T : Space ι X) (UB_hat : SArr 3 ι × SArr 3 ι) : PArr 3 X × PArr 3 X := (T.vbackward UB_hat.1, T.vbackward UB_hat.2)

/-- solvers/Bq2D.py:90-93 `get_rho`. -/
def get_rho (T : Space ι X) (Ur_hat : SArr 2 ι × (ι → ℂ)) : X → ℝ := T.backward Ur_hat.2

/-- solvers/Bq2D.py:95-99 `get_velocity`. -/
def get_velocityBq (T : Space ι X) (Ur_hat : SArr 2 ι × (ι → ℂ)) : PArr 2 X := T.vbackward Ur_hat.1

/-- `BqFile.update_components` and `get_Ur` (solvers/Bq2D.py:80-88). -/
def get_Ur (T : Space ι X) (Ur_hat : SArr 2 ι × (ι → ℂ)) : PArr 2 X × (X → ℝ) := (T.vbackward Ur_hat.1, T.backward Ur_hat.2)

end SpectralDNS.Periodic
