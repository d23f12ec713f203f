import Verif.Func.LebModel
import Verif.Func.More
import Verif.Domain.Props
import Mathlib.MeasureTheory.Integral.IntervalIntegral.Basic

/-!
# The Lebesgue integral functional returns integrals
-/

namespace LinPDE.Func
open LinPDE.Nd MeasureTheory

/-- The integral of `g`, a function of a point, over a domain. -/
noncomputable def integralOver (D : Domains.Dom) (g : (List ℕ → ℝ) → ℝ) : ℝ :=
  match D with
  | .interval a b => ∫ t in a..b, g fun _ => t
  | D => ∫ x in D.toSet, g fun p => if h : p.getD 0 0 < D.size then x ⟨p.getD 0 0, h⟩ else 0

/-- Functions that the functional can integrate: constants on all domains, scalar functions on intervals, and sums. -/
inductive LebOK (D : Domains.Dom) : FE ℝ → Prop
  | const {i v} : LebOK D (.const i v)
  | zero {i o} : LebOK D (.zero i o)
  | affine {a b A c} (hD : D = .interval a b) (hi : (FE.affine A c).inS = []) (ho : (FE.affine A c).outS = []) (hw : WF (.affine A c))
      (hint : IntervalIntegrable (fun t => (FE.affine A c).den (fun _ => t) []) volume a b) : LebOK D (.affine A c)
  | lam {a b osh val} (hD : D = .interval a b) (hw : WF (.lam [] [] osh val))
      (hint : IntervalIntegrable (fun t => (FE.lam [] [] osh val).den (fun _ => t) []) volume a b) : LebOK D (.lam [] [] osh val)
  | sum {i o fs} (hne : fs ≠ []) (ho : ∀ f ∈ fs, f.outS = o) (h : ∀ f ∈ fs, LebOK D f) : LebOK D (.sum i o fs)

/-- The functions in `LebOK` are integrable over the domain. -/
def IntegrableOver (D : Domains.Dom) (g : (List ℕ → ℝ) → ℝ) : Prop :=
  match D with
  | .interval a b => IntervalIntegrable (fun t => g fun _ => t) volume a b
  | D => IntegrableOn (fun x => g fun p => if h : p.getD 0 0 < D.size then x ⟨p.getD 0 0, h⟩ else 0) D.toSet

lemma toSet_lt_top (D : Domains.Dom) : volume D.toSet < ⊤ := by
  rw [Domains.toSet_eq]
  exact (isCompact_Icc).measure_lt_top

lemma integrableOver_const (D : Domains.Dom) (c : ℝ) : IntegrableOver D fun _ => c := by
  have key : ∀ D : Domains.Dom, IntegrableOn (fun _ : Fin D.size → ℝ => c) D.toSet :=
    fun D => integrableOn_const (toSet_lt_top D).ne
  cases D with
  | interval a b => exact intervalIntegrable_const
  | _ => exact key _

lemma integrableOver_add {D : Domains.Dom} {g h : (List ℕ → ℝ) → ℝ} (hg : IntegrableOver D g) (hh : IntegrableOver D h) :
    IntegrableOver D fun p => g p + h p := by
  cases D with
  | interval a b => exact IntervalIntegrable.add hg hh
  | _ => exact Integrable.add hg hh

lemma integralOver_add {D : Domains.Dom} {g h : (List ℕ → ℝ) → ℝ} (hg : IntegrableOver D g) (hh : IntegrableOver D h) :
    integralOver D (fun p => g p + h p) = integralOver D g + integralOver D h := by
  cases D with
  | interval a b => exact intervalIntegral.integral_add hg hh
  | _ => exact integral_add hg hh

lemma integralOver_const {D : Domains.Dom} (hv : D.Valid) (hne : D.NonEmptyProds) (c : ℝ) :
    ∃ r, D.volume = .ok r ∧ integralOver D (fun _ => c) = c * r := by
  obtain ⟨r, h1, h2⟩ := Domains.volume_measure D hv hne
  have key : (∫ _ in D.toSet, c) = c * r := by
    rw [setIntegral_const, smul_eq_mul, mul_comm, ← h2]; rfl
  refine ⟨r, h1, ?_⟩
  cases D with
  | interval a b =>
    simp only [Domains.Dom.volume, Except.ok.injEq] at h1
    rw [integralOver, intervalIntegral.integral_const, smul_eq_mul, ← h1, mul_comm]
  | _ => exact key

lemma integrableOver_sum {D : Domains.Dom} {o : List ℕ} : ∀ fs : List (FE ℝ), (∀ f ∈ fs, IntegrableOver D fun p => f.den p o) →
    IntegrableOver D fun p => (fs.map fun f => f.den p o).sum
  | [], _ => by simpa using integrableOver_const D 0
  | f :: fs, h => by
    simp only [List.map_cons, List.sum_cons]
    exact integrableOver_add (h f (by simp)) (integrableOver_sum fs fun g hg => h g (by simp [hg]))

lemma lebOK_integrable {D : Domains.Dom} {f : FE ℝ} (h : LebOK D f) : ∀ o, Fits f.outS o → IntegrableOver D fun p => f.den p o := by
  induction h with
  | @const i v =>
    intro o _
    simp only [FE.den]
    exact integrableOver_const _ _
  | @zero i s =>
    intro o _
    simp only [FE.den]
    exact integrableOver_const _ _
  | affine hD hi ho hw hint =>
    intro o hf
    rw [ho] at hf
    have : o = [] := by cases o with
      | nil => rfl
      | cons => exact hf.elim
    subst this hD
    exact hint
  | lam hD hw hint =>
    intro o hf
    have : o = [] := by cases o with
      | nil => rfl
      | cons => exact hf.elim
    subst this hD
    exact hint
  | @sum i s fs hne ho h ih =>
    intro o hf
    simp only [FE.den, denAll_eq, List.map_map]
    exact integrableOver_sum fs fun f hf' => ih f hf' o (by rw [ho f hf']; exact hf)

lemma quad_ok {f : FE ℝ} (hw : WF f) (hi : f.inS = []) (ho : f.outS = []) (a b : ℝ) :
    quad f a b = .ok ⟨[], fun _ => ∫ t in a..b, f.den (fun _ => t) []⟩ := by
  have key : ∀ t : ℝ, ∃ v, f.call false ⟨[], fun _ => t⟩ = .ok v ∧ v.shape = [] ∧ v.get [] = f.den (fun _ => t) [] := by
    intro t
    obtain ⟨v, h1, h2, h3⟩ := call_point false hw (x := ⟨[], fun _ => t⟩) hi.symm
    exact ⟨v, h1, h2.trans ho, h3 [] (by rw [ho]; trivial)⟩
  obtain ⟨v, h1, h2, _⟩ := key a
  rw [quad, h1]
  simp only [h2]
  rw [if_neg (by simp)]
  congr 2
  funext _
  congr 1
  funext t
  obtain ⟨v, h1, h2, h3⟩ := key t
  rw [h1]
  simp only [h2, List.length_nil, List.replicate_zero, h3]

lemma pySum_ok {s : Shp} (as : List (Arr ℝ)) (hne : as ≠ []) (h : ∀ a ∈ as, a.shape = s) :
    ∃ c, pySum as = .ok c ∧ c.shape = s ∧ ∀ i, Fits s i → c.get i = (as.map fun a => a.get i).sum := by
  cases as with
  | nil => exact absurd rfl hne
  | cons a as =>
    have h0 : ∃ c, zipB (· + ·) (⟨[], fun _ => 0⟩ : Arr ℝ) a = .ok c ∧ c.shape = s ∧ ∀ i, Fits s i → c.get i = a.get i := by
      have ha := h a (by simp)
      refine ⟨⟨a.shape, fun i => 0 + a.get (bidx a.shape i)⟩, by simp only [zipB, bcast_nil_left], ha, fun i hi => ?_⟩
      dsimp only
      rw [ha, bidx_self hi, zero_add]
    obtain ⟨c, h1, h2, h3⟩ := h0
    obtain ⟨d, h4, h5, h6⟩ := reduce_same as c h2 fun b hb => h b (by simp [hb])
    refine ⟨d, ?_, h5, fun i hi => ?_⟩
    · rw [pySum, List.foldlM_cons]; simp only [h1, bind, Except.bind]; exact h4
    · rw [h6 i hi, h3 i hi, List.map_cons, List.sum_cons]

lemma mapE_ok {α β ε : Type} {f : α → Except ε β} {R : α → β → Prop} : ∀ (as : List α), (∀ a ∈ as, ∃ b, f a = .ok b ∧ R a b) →
    ∃ bs, mapE f as = .ok bs ∧ List.Forall₂ R as bs
  | [], _ => ⟨[], rfl, .nil⟩
  | a :: as, h => by
    obtain ⟨b, h1, h2⟩ := h a (by simp)
    obtain ⟨bs, h3, h4⟩ := mapE_ok as fun c hc => h c (by simp [hc])
    exact ⟨b :: bs, by rw [mapE]; simp only [h1, h3, bind, Except.bind], .cons h2 h4⟩

/-- C60.  The integral functional over an interval or a box returns, with enough recursion depth, the integral of every entry
of the function: for constants on all domains, for scalar functions on intervals, and for sums of such. -/
theorem lebesgue_partial {L : Leb} (hv : L.dom.Valid) (hne : L.dom.NonEmptyProds) {f : FE ℝ} (hf : LebOK L.dom f)
    (hcod : L.cod = f.outS) : ∃ N, ∀ n ≥ N, ∃ a, L.call n f = .ok a ∧ a.shape = f.outS ∧
      ∀ o, Fits f.outS o → a.get o = integralOver L.dom fun p => f.den p o := by
  obtain ⟨D, cod⟩ := L
  dsimp only at hv hne hf hcod
  have hconst : ∀ v : Arr ℝ, ∃ a, (Leb.mk D cod).ofConst v = .ok a ∧ a.shape = v.shape ∧
      ∀ o, a.get o = integralOver D fun _ => v.get o := by
    intro v
    obtain ⟨r, h1, _⟩ := integralOver_const hv hne 0
    refine ⟨⟨v.shape, fun i => v.get i * r⟩, by simp only [Leb.ofConst, h1], rfl, fun o => ?_⟩
    obtain ⟨r', h2, h3⟩ := integralOver_const hv hne (v.get o)
    rw [h1] at h2
    injection h2 with h2
    rw [h3, ← h2]
  induction hf with
  | @const i v =>
    obtain ⟨a, h1, h2, h3⟩ := hconst v
    refine ⟨1, fun n hn => ⟨a, ?_, h2, fun o _ => ?_⟩⟩
    · obtain ⟨n, rfl⟩ := Nat.exists_eq_succ_of_ne_zero (Nat.one_le_iff_ne_zero.mp hn)
      rw [Leb.call]; exact h1
    · simp only [FE.den]; exact h3 o
  | @zero i s =>
    obtain ⟨a, h1, h2, h3⟩ := hconst ⟨s, fun _ => 0⟩
    refine ⟨1, fun n hn => ⟨a, ?_, h2, fun o _ => ?_⟩⟩
    · obtain ⟨n, rfl⟩ := Nat.exists_eq_succ_of_ne_zero (Nat.one_le_iff_ne_zero.mp hn)
      rw [Leb.call]; exact h1
    · simp only [FE.den]; exact h3 o
  | affine hD hi ho hw hint =>
    rename_i a b A c
    refine ⟨1, fun n hn => ⟨⟨[], fun _ => ∫ t in a..b, (FE.affine A c).den (fun _ => t) []⟩, ?_, ho.symm, fun o hf => ?_⟩⟩
    · obtain ⟨n, rfl⟩ := Nat.exists_eq_succ_of_ne_zero (Nat.one_le_iff_ne_zero.mp hn)
      rw [Leb.call]
      simp only [Leb.orNumeric, Leb.numeric, hcod, ho, hD, ne_eq, not_true_eq_false, if_false]
      exact quad_ok hw hi ho _ _
      all_goals nofun
    · rw [ho] at hf
      have : o = [] := by cases o with
        | nil => rfl
        | cons => exact hf.elim
      subst this hD
      rfl
  | lam hD hw hint =>
    rename_i a b osh val
    refine ⟨1, fun n hn => ⟨⟨[], fun _ => ∫ t in a..b, (FE.lam [] [] osh val).den (fun _ => t) []⟩, ?_, rfl, fun o hf => ?_⟩⟩
    · obtain ⟨n, rfl⟩ := Nat.exists_eq_succ_of_ne_zero (Nat.one_le_iff_ne_zero.mp hn)
      rw [Leb.call]
      simp only [Leb.orNumeric, Leb.numeric, hcod, FE.outS, hD, ne_eq, not_true_eq_false, if_false]
      exact quad_ok hw rfl rfl _ _
      all_goals nofun
    · have : o = [] := by cases o with
        | nil => rfl
        | cons => exact hf.elim
      subst this hD
      rfl
  | @sum i s fs hne' ho h ih =>
    have hcod' : cod = s := hcod
    have hN : ∃ N, ∀ n ≥ N, ∀ f ∈ fs, ∃ a, (Leb.mk D cod).call n f = .ok a ∧ a.shape = s ∧
        ∀ o, Fits s o → a.get o = integralOver D fun p => f.den p o := by
      clear hne'
      induction fs with
      | nil => exact ⟨0, fun n _ f hf => by simp at hf⟩
      | cons g gs ih2 =>
        obtain ⟨N1, h1⟩ := ih g (by simp) (by rw [hcod', ho g (by simp)])
        obtain ⟨N2, h2⟩ := ih2 (fun f hf => ho f (by simp [hf])) (fun f hf => h f (by simp [hf]))
          (fun f hf => ih f (by simp [hf])) hcod
        refine ⟨max N1 N2, fun n hn f hf => ?_⟩
        rcases List.mem_cons.mp hf with rfl | hf
        · obtain ⟨a, h3, h4, h5⟩ := h1 n (le_trans (le_max_left _ _) hn)
          rw [ho f (by simp)] at h4 h5
          exact ⟨a, h3, h4, h5⟩
        · exact h2 n (le_trans (le_max_right _ _) hn) f hf
    obtain ⟨N, hN⟩ := hN
    refine ⟨N + 1, fun n hn => ?_⟩
    obtain ⟨n, rfl⟩ := Nat.exists_eq_succ_of_ne_zero (show n ≠ 0 by omega)
    obtain ⟨as, h1, h2⟩ := mapE_ok fs fun f hf => hN n (by omega) f hf
    have hsh : ∀ a ∈ as, a.shape = s := by
      intro a ha
      obtain ⟨k, hk, rfl⟩ := List.getElem_of_mem ha
      obtain ⟨_, h3⟩ := forall₂_get h2 (n := k) (h2.length_eq ▸ hk)
      exact h3.1
    obtain ⟨c, h3, h4, h5⟩ := pySum_ok as (by
      intro hn
      subst hn
      exact hne' (List.length_eq_zero_iff.mp h2.length_eq)) hsh
    refine ⟨c, ?_, h4, fun o hf => ?_⟩
    · rw [Leb.call, h1]
      simp only [h3, Leb.orNumeric]
    · have hf' : Fits s o := hf
      rw [h5 o hf']
      simp only [FE.den, denAll_eq, List.map_map]
      clear h5 h4 h3 h1 hN hn hne' hsh ih
      induction h2 with
      | nil =>
        obtain ⟨r, h1, h2⟩ := integralOver_const hv hne 0
        simp [h2]
      | @cons f a fs as hfa _ ih2 =>
        simp only [List.map_cons, List.sum_cons]
        rw [integralOver_add, hfa.2 o hf', ih2 (fun g hg => ho g (by simp [hg])) (fun g hg => h g (by simp [hg])) hcod hf]
        · rfl
        · exact lebOK_integrable (h f (by simp)) o (by rw [ho f (by simp)]; exact hf')
        · refine integrableOver_sum fs fun g hg => lebOK_integrable (h g (by simp [hg])) o ?_
          rw [ho g (by simp [hg])]; exact hf'

end LinPDE.Func
