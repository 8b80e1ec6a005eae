import Verif.Model.Rounded
import Verif.Lemmas.BurnInStats
import Verif.Spec.SGHMC
import Verif.Spec.SGLD

/-!
# With exact arithmetic the formulas of `Model/Rounded.lean` are those of the other models
-/

namespace PySGMCMC.Rounded

open Arith

theorem ofNat_lit (n : Nat) : (OfNat.ofNat n : Fl) = .fin (n : ℝ) := rfl

theorem link_safeDivide (x y c : Fl) : safeDivide exact x y c = TensorUtils.safeDivide x y c := by
  simp [safeDivide, TensorUtils.safeDivide, ofNat_lit]

theorem link_safeDivide' (x y : Fl) : safeDivide' exact x y = TensorUtils.safeDivide' x y := by
  simp [safeDivide', TensorUtils.safeDivide', link_safeDivide]

theorem link_safeSqrt (x : Fl) : safeSqrt exact x = TensorUtils.safeSqrt x := by
  simp [safeSqrt, TensorUtils.safeSqrt]

theorem link_midpoint (a b : ℝ) : midpoint exact (.fin a) (.fin b) = .fin ((a + b) / 2) := by
  simp only [midpoint, exact_add, exact_div, exact_lit, Fl.add_fin]
  exact Fl.div_fin two_ne_zero

theorem link_median (t : Tensor ℝ) :
    median exact t = match TensorUtils.median t with | .ok v => .ok (.fin v) | .error e => .error e := by
  unfold median TensorUtils.median
  simp only [link_midpoint]
  split
  · split <;> simp_all
  · split
    · rfl
    · split <;> simp_all

theorem link_dimension (n : Nat) : dimension exact n = ⌈Real.sqrt ((n : ℝ) * 2)⌉₊ := by
  unfold dimension
  simp only [sqrtSize, exact_lit, exact_sqrt]
  rw [Fl.sqrt_fin (by positivity)]

theorem link_sqrtSize (n : Nat) : sqrtSize exact n = .fin (Real.sqrt ((n : ℝ) * 2)) := by
  simp only [sqrtSize, exact_lit, exact_sqrt]
  exact Fl.sqrt_fin (by positivity)

theorem link_rhsR (tau : Fl) : rhsR exact tau = BurnInStats.rhsR tau := by
  simp [rhsR, BurnInStats.rhsR]

theorem link_rhsTau (g tau vhat : Fl) : rhsTau exact g tau vhat = BurnInStats.rhsTau g tau vhat := by
  simp [rhsTau, BurnInStats.rhsTau, link_safeDivide']

theorem link_rhsMinv (vhat : Fl) : rhsMinv exact vhat = BurnInStats.rhsMinv vhat := by
  simp [rhsMinv, BurnInStats.rhsMinv, link_safeDivide', link_safeSqrt]

theorem link_rhsG (r g grad : Fl) : rhsG exact r g grad = BurnInStats.rhsG r g grad := by
  simp [rhsG, BurnInStats.rhsG]

theorem link_rhsVhat (r vhat grad : Fl) : rhsVhat exact r vhat grad = BurnInStats.rhsVhat r vhat grad := by
  simp [rhsVhat, BurnInStats.rhsVhat]

theorem link_init : Stats.init exact = ⟨BurnInStats.tau0, BurnInStats.g0, BurnInStats.vhat0, BurnInStats.minv0⟩ := by
  simp [Stats.init, BurnInStats.tau0, BurnInStats.g0, BurnInStats.vhat0, BurnInStats.minv0]

theorem link_step (s : BurnInStats.Stats) (x : Fl) :
    Stats.step exact ⟨s.tau, s.g, s.vhat, s.minv⟩ x =
      ⟨(s.next x).tau, (s.next x).g, (s.next x).vhat, (s.next x).minv⟩ := by
  simp [Stats.step, BurnInStats.Stats.next, link_rhsR, link_rhsTau, link_rhsMinv, link_rhsG, link_rhsVhat]

theorem link_after (grads : List Fl) :
    Stats.after exact grads =
      let s := grads.foldl BurnInStats.Stats.next BurnInStats.Stats.init
      ⟨s.tau, s.g, s.vhat, s.minv⟩ := by
  induction grads using List.reverseRecOn with
  | nil => exact link_init
  | append_singleton grads x ih =>
    unfold Stats.after at ih ⊢
    rw [List.foldl_append, List.foldl_append, ih]
    exact link_step _ _

theorem link_epsilonScaled (e s : Fl) : epsilonScaled exact e s = SGHMC.epsilonScaled e s := by
  simp [epsilonScaled, SGHMC.epsilonScaled]

theorem link_noiseScale (es mdecay minv : Fl) : noiseScale exact es mdecay minv = SGHMC.noiseScale es mdecay minv := by
  simp [noiseScale, SGHMC.noiseScale, SGHMC.noiseConst, ofNat_lit]

theorem link_sghmcSigma (es mdecay minv : Fl) : sghmcSigma exact es mdecay minv = SGHMC.sigma es mdecay minv := by
  simp [sghmcSigma, SGHMC.sigma, link_noiseScale]

theorem link_sghmcMom (e md minv grad mom sample : Fl) :
    sghmcMom exact e md minv grad mom sample = SGHMC.rhsMom e md minv grad mom sample := by
  simp [sghmcMom, SGHMC.rhsMom]

theorem link_sgldSigma (e a s minv : Fl) : sgldSigma exact e a s minv = SGLD.sigma e a s minv := by
  simp [sgldSigma, SGLD.sigma, SGLD.noiseConst, link_safeDivide', link_safeSqrt, ofNat_lit]

theorem link_sgldVec (e a minv grad sample : Fl) : sgldVec exact e a minv grad sample = SGLD.rhsVec e a minv grad sample := by
  simp [sgldVec, SGLD.rhsVec]

/-- The variables of an element of the exact model. -/
def sghmcOf {κ : Type} (p : SGHMC.PState κ) (k : κ) : Sghmc :=
  ⟨⟨p.tau k, p.g k, p.vhat k, p.minv k⟩, p.mom k, p.vec k⟩

theorem link_sghmc {P : Type} {ι : P → Type} (inp : SGHMC.Inputs ι) (i : P) (γ : ι i → Fl) (p : SGHMC.PState (ι i))
    (k : ι i) :
    sghmcOf (SGHMC.next inp i γ p) k =
      Sghmc.step exact inp.scaleGrad inp.mdecay (sghmcOf p k)
        ⟨inp.epsilon, γ k, inp.normal i k, (inp.fed i).map fun v => v k⟩ := by
  have h : ((inp.fed i).map fun v => v k).getD (BurnInStats.rhsMinv (p.vhat k)) =
      SGHMC.minvSeen (inp.fed i) (fun k => BurnInStats.rhsMinv (p.vhat k)) k := by
    unfold SGHMC.minvSeen
    cases inp.fed i <;> rfl
  simp [sghmcOf, Sghmc.step, Stats.step, SGHMC.next, link_rhsR, link_rhsTau, link_rhsMinv, link_rhsG, link_rhsVhat,
    link_sghmcSigma, link_sghmcMom, link_epsilonScaled, h]

theorem link_sghmc_init {κ : Type} (θ : κ → Fl) (k : κ) : sghmcOf (SGHMC.PState.init θ) k = Sghmc.init exact (θ k) := by
  simp [sghmcOf, Sghmc.init, link_init, SGHMC.PState.init]

def sgldOf {κ : Type} (p : SGLD.PState κ) (k : κ) : Sgld :=
  ⟨⟨p.tau k, p.g k, p.vhat k, p.minv k⟩, p.vec k⟩

theorem link_sgld {P : Type} {ι : P → Type} (inp : SGLD.Inputs ι) (i : P) (γ : ι i → Fl) (p : SGLD.PState (ι i))
    (k : ι i) :
    sgldOf (SGLD.next inp i γ p) k =
      Sgld.step exact inp.a inp.scaleGrad (sgldOf p k)
        ⟨inp.epsilon, γ k, inp.normal i k, (inp.fed i).map fun v => v k⟩ := by
  have h : ((inp.fed i).map fun v => v k).getD (BurnInStats.rhsMinv (p.vhat k)) =
      SGLD.minvSeen (inp.fed i) (fun k => BurnInStats.rhsMinv (p.vhat k)) k := by
    unfold SGLD.minvSeen
    cases inp.fed i <;> rfl
  simp [sgldOf, Sgld.step, Stats.step, SGLD.next, link_rhsR, link_rhsTau, link_rhsMinv, link_rhsG, link_rhsVhat,
    link_sgldSigma, link_sgldVec, h]

theorem link_sgld_init {κ : Type} (θ : κ → Fl) (k : κ) : sgldOf (SGLD.PState.init θ) k = Sgld.init exact (θ k) := by
  simp [sgldOf, Sgld.init, link_init, SGLD.PState.init]

theorem link_pGrad (e m c p : Fl) : pGrad exact e m c p = Relativistic.pGrad e m c p := by
  simp [pGrad, Relativistic.pGrad]

theorem link_noiseFactor (e d b : Fl) : noiseFactor exact e d b = Relativistic.noiseFactor e d b := by
  simp [noiseFactor, Relativistic.noiseFactor, ofNat_lit]

theorem link_relMom (e m c d b grad normal p : Fl) :
    relMom exact e m c d b grad normal p = Relativistic.rhsMom e m c d b grad normal p := by
  simp [relMom, Relativistic.rhsMom, link_noiseFactor, link_pGrad]

/-- One session run of the exact model, in the order of the dependencies. -/
theorem link_rel {P : Type} (inp : Relativistic.Inputs P) (params : P → Fl) (i : P) (p : Relativistic.PState) :
    let q := Relativistic.Op.all.foldl (fun q o => Relativistic.evalOp inp params i o q) p
    (⟨q.mom, q.vec⟩ : Rel) =
      Rel.step exact inp.mass inp.c inp.d inp.bhat ⟨p.mom, p.vec⟩ ⟨inp.epsilon, -(inp.grad params i), inp.normal i⟩ ∧
    q.param = q.vec := by
  simp [Relativistic.Op.all, Relativistic.evalOp, Rel.step, link_relMom, link_pGrad]

theorem link_rhsHist (al hist grad : Fl) : rhsHist exact al (1 - al) hist grad = SVGD.rhsHist al hist grad := by
  simp [rhsHist, SVGD.rhsHist]

theorem link_adjGrad (fudge grad hist : Fl) : adjGrad exact fudge grad hist = SVGD.adjGrad fudge grad hist := by
  simp [adjGrad, SVGD.adjGrad]

theorem link_zeroOne {ι : Type} (X : BaseModel.Rows ι) (l u : Option (ι → Fl)) :
    zeroOneNormalization exact X l u = BaseModel.zeroOneNormalization X l u := by
  unfold zeroOneNormalization BaseModel.zeroOneNormalization
  simp only [zeroOne, exact_sub, exact_div]
  rfl

theorem link_unZeroOne {ι : Type} (X : BaseModel.Rows ι) (l u : ι → Fl) :
    BaseModel.zeroOneUnnormalization X l u = X.map fun row j => unZeroOne exact (row j) (l j) (u j) := by
  simp [unZeroOne, BaseModel.zeroOneUnnormalization]

theorem link_standardize (x m s : Fl) : standardize exact x m s = BaseModel.standardize x m s := by
  simp [standardize, BaseModel.standardize]

theorem link_unstandardize (x m s : Fl) : unstandardize exact x m s = BaseModel.unstandardize x m s := by
  simp [unstandardize, BaseModel.unstandardize]

end PySGMCMC.Rounded
