import Verif.Model.Mat
import Mathlib.Data.Rat.Floor
import Mathlib.Algebra.Order.Round

/-!
# The Kalman filter equations

Model of source/ikf/source/Estimator/KalmanFilter.cpp (`KF.cpp`), NormalizedInnovationSquared.cpp
(`NIS.cpp`) and of the covariance helpers of utils/eigen_utils.cpp (`EU.cpp`), in exact real arithmetic.
-/

namespace Ikf
open Mat

/-- EU.cpp:168-171 `stabilize_covariance(Sigma, eps)`. -/
noncomputable def stabilize (S : Mat) (eps : ℝ) : Res Mat := do
  let I := smul eps (one S.rows) -- Identity(rows, cols)*eps: the sum below needs rows = cols anyway
  let a ← S +! S.tr
  (smul (1/2) a) +! I

/-- EU.cpp:173-175 `symmetrize_covariance(Sigma)`. -/
noncomputable def symmetrize (S : Mat) : Res Mat := do
  let a ← S +! S.tr
  .ok (smul (1/2) a)

/-- KF.cpp:76-82 `check_dim(mean, Sigma)`. -/
def checkDimMean (mean Sigma : Mat) : Bool :=
  !(mean.cols != 1 || mean.rows != Sigma.rows || Sigma.rows != Sigma.cols)

/-- KF.cpp:84-93 `check_dim(Sigma_apri, Phi)`. -/
def checkDimPhi (Sigma Phi : Mat) : Bool := !(Sigma.rows != Phi.rows || Sigma.rows != Phi.cols)

/-- KF.cpp:95-103 `check_dim(Sigma_apri, Phi, Q)`. -/
def checkDimQ (Sigma Phi Q : Mat) : Bool :=
  checkDimPhi Sigma Phi && !(Sigma.rows != Q.rows || Sigma.rows != Q.cols)

/-- KF.cpp:105-124 `check_dim(H, R, r, Sigma)`. -/
def checkDimObs (H R r Sigma : Mat) : Bool :=
  !(H.cols != Sigma.rows) && !(H.rows != r.rows) && !(r.cols != 1 || r.rows != H.rows) &&
    !(H.rows != R.rows || H.rows != R.cols)

/-- KF.cpp:26-38 `covariance_propagation`; `eps = 1e-12` is the default of `stabilize_covariance`
(eigen_utils.hpp:235). -/
noncomputable def covPropagation (Sigma Phi Q : Mat) (stab : Bool) : Res Mat :=
  if checkDimQ Sigma Phi Q then
    if stab then do
      let s ← stabilize Sigma (1 / 10^12)
      let a ← Phi *! s
      let b ← a *! Phi.tr
      let q ← stabilize Q (1 / 10^12)
      let c ← b +! q
      stabilize c (1 / 10^12)
    else do
      let a ← Phi *! Sigma
      let b ← a *! Phi.tr
      b +! Q
  else .ok Mat.empty

/-- KalmanFilter.hpp:55-63 `CorrectionCfg_t`. -/
structure Cfg where
  outlier : Bool := true
  joseph : Bool := true
  stab : Bool := true
  conf : ℚ := 997 / 1000
  eps : ℝ := 1 / 10^16
  numIter : ℕ := 10
  tolEps : ℝ := 1 / 10^6

/-- KalmanFilter.hpp:49-54 `CorrectionResult_t`. -/
structure CorrRes where
  Sapos : Mat
  dx : Mat
  U : Mat
  rejected : Bool

/-- A default constructed `CorrectionResult_t`. -/
def CorrRes.dflt : CorrRes := ⟨Mat.empty, Mat.zero 0 1, Mat.empty, true⟩

/-- NIS.cpp:103-134 the table compiled in (`SMALL_NIS_LOOKUP_TABLE` is 1,
NormalizedInnovationSquared.hpp:29), in units of 10^-5. -/
def nisTable : List (Int × List ℤ) :=
  [
   (380,
     [24587, 95607, 177680, 263860, 352240, 442030, 532800, 624330, 716450, 809050, 902050, 995400,
     1089040, 1182940, 1277070, 1371410, 1465940, 1560630, 1655480, 1750470, 1845590, 1940830, 2036180,
     2131630, 2227190, 2322830, 2418560, 2514380, 2610260, 2706230, 2802260, 2898350, 2994510, 3090730,
     3187000, 3283330, 3379710, 3476140, 3572620, 3669140, 3765710, 3862320, 3958980, 4055670, 4152400,
     4249160, 4345970, 4442800, 4539670, 4636580]),
   (500,
     [45494, 138630, 236600, 335670, 435150, 534810, 634580, 734410, 834280, 934180, 1034100, 1134030,
     1233980, 1333930, 1433890, 1533850, 1633820, 1733790, 1833770, 1933740, 2033720, 2133700, 2233690,
     2333670, 2433660, 2533650, 2633630, 2733620, 2833610, 2933600, 3033590, 3133590, 3233580, 3333570,
     3433560, 3533560, 3633550, 3733550, 3833540, 3933530, 4033530, 4133520, 4233520, 4333520, 4433510,
     4533510, 4633500, 4733500, 4833500, 4933490]),
   (680,
     [98895, 227890, 350590, 469540, 586080, 700920, 814480, 927040, 1038800, 1149880, 1260390, 1370410,
     1480010, 1589220, 1698100, 1806680, 1914980, 2023040, 2130860, 2238480, 2345900, 2453150, 2560220,
     2667140, 2773920, 2880550, 2987060, 3093440, 3199710, 3305870, 3411930, 3517880, 3623740, 3729520,
     3835200, 3940810, 4046330, 4151780, 4257160, 4362470, 4467710, 4572890, 4678000, 4783050, 4888050,
     4992990, 5097880, 5202710, 5307490, 5412230]),
   (950,
     [384150, 599150, 781470, 948770, 1107050, 1259160, 1406710, 1550730, 1691900, 1830700, 1967510,
     2102610, 2236200, 2368480, 2499580, 2629620, 2758710, 2886930, 3014350, 3141040, 3267060, 3392440,
     3517250, 3641500, 3765250, 3888510, 4011330, 4133710, 4255700, 4377300, 4498530, 4619430, 4739990,
     4860240, 4980180, 5099850, 5219230, 5338350, 5457220, 5575850, 5694240, 5812400, 5930350, 6048090,
     6165620, 6282960, 6400110, 6517080, 6633860, 6750480]),
   (997,
     [880750, 1161830, 1393140, 1601430, 1795760, 1980470, 2158010, 2329970, 2497410, 2661080, 2821560,
     2979290, 3134610, 3287800, 3439090, 3588680, 3736720, 3883350, 4028690, 4172830, 4315880, 4457900,
     4598970, 4739150, 4878490, 5017050, 5154870, 5291990, 5428450, 5564290, 5699530, 5834200, 5968330,
     6101940, 6235070, 6367720, 6499920, 6631680, 6763030, 6893970, 7024540, 7154720, 7284560, 7414040,
     7543190, 7672020, 7800530, 7928750, 8056670, 8184300])
  ]

/-- NIS.cpp:78-94 `chi2inv(p, df)`, in units of 10^-5. Simplification: `p*1000` is not rounded to double
before `round`. An unlisted key dereferences `end()` (line 88). -/
def chi2inv (p : ℚ) (df : ℕ) : Res ℤ :=
  match nisTable.lookup (round (p * 1000)) with
  | some row => if row.length > df then .ok (row.getD df 0) else .ok 0
  | none => .ub

/-- NIS.cpp:23-31 `check_dim(r, Sigma)`. -/
def nisDim (r S : Mat) : Bool := !(r.cols != 1 || r.rows != S.rows)

/-- NIS.cpp:33-40 `NIS(Sigma, r)`. -/
noncomputable def nis (S r : Mat) : Res ℝ :=
  if nisDim r S then do
    let Si ← S.invC
    let a ← r.tr *! Si
    let b ← a *! r
    .ok (b.e 0 0)
  else .ok 0

open Classical in
/-- NIS.cpp:54-63 `check_NIS(S, r, confidence_interval)`. -/
noncomputable def checkNIS (S r : Mat) (conf : ℚ) : Res Bool :=
  if conf > 0 then do
    let s ← nis S r
    let th ← chi2inv conf r.rows
    .ok (if s > (th : ℝ) / 100000 then false else true)
  else .ok true

/-- KF.cpp:40-74 `correction_step`. -/
noncomputable def correctionStep (H R r Sigma : Mat) (cfg : Cfg) : Res CorrRes :=
  if checkDimObs H R r Sigma then do
    let dim := Sigma.rows
    let a ← H *! Sigma
    let b ← a *! H.tr
    let S0 ← b +! R
    let S ← stabilize S0 cfg.eps
    let rejected ← (if cfg.outlier then do
        let good ← checkNIS S r cfg.conf
        .ok (!good)
      else .ok false : Res Bool)
    let p ← Sigma *! H.tr
    let Si ← S.invC
    let K ← p *! Si
    let dx ← K *! r
    let KH ← K *! H
    let U ← one dim -! KH
    let P0 ← (if cfg.joseph then do
        let x ← U *! Sigma
        let y ← x *! U.tr
        let v ← K *! R
        let w ← v *! K.tr
        y +! w
      else U *! Sigma)
    let P1 ← (if cfg.stab then stabilize P0 cfg.eps else .ok P0)
    let P ← symmetrize P1
    .ok ⟨P, dx, U, rejected⟩
  else .ok CorrRes.dflt

/-- KF.cpp:126-162 `covariance_intersection_correction`. -/
noncomputable def ciCorrection (Hi Hj R r Si Sj : Mat) (wi : ℝ) (cfg : Cfg) : Res CorrRes :=
  if checkDimObs Hi R r Si && checkDimObs Hj R r Sj then do
    let wj := 1 - wi
    let a ← (smul (1 / wj) Hj) *! Sj
    let b ← a *! Hj.tr
    let S0 ← b +! R
    let S ← stabilize S0 cfg.eps
    let rejected ← (if cfg.outlier then do
        let good ← checkNIS S r cfg.conf
        .ok (!good)
      else .ok false : Res Bool)
    let Sinv ← S.invC
    let c ← (smul (1 / wi ^ 2) Si) *! Hi.tr
    let d ← c *! Sinv
    let e ← d *! Hi
    let f ← e *! Si
    let P0 ← (smul (1 / wi) Si) -! f
    let g ← (smul (1 / wi) Si) *! Hi.tr
    let h ← g *! Sinv
    let dx ← h *! r
    let P ← (if cfg.stab then stabilize P0 cfg.eps else .ok P0)
    .ok ⟨P, dx, Mat.empty, rejected⟩
  else .ok CorrRes.dflt

end Ikf
