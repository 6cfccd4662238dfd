import Verif.Model.CodyDouble
import Verif.Props.Cody

/-! # C140: `CodyLorentz` in double precision -/

namespace PyElli

open Dbl

/-! ## NaN spreads -/

lemma add_nan_right (a : Dbl) : add a nan = nan := by cases a <;> rfl

lemma mul_nan_right (a : Dbl) : mul a nan = nan := by cases a <;> rfl

lemma div_nan_right (a : Dbl) : div a nan = nan := by cases a <;> rfl

lemma foldl_nan (l : List Dbl) : l.foldl add nan = nan := by
  induction l with
  | nil => rfl
  | cons a l ih => simpa [add] using ih

lemma sumD_nan {l : List Dbl} (h : nan ∈ l) : sumD l = nan := by
  unfold sumD
  generalize num 0 = z
  induction l generalizing z with
  | nil => cases h
  | cons a l ih =>
    rw [List.foldl_cons]
    rcases List.mem_cons.1 h with h | h
    · rw [← h, add_nan_right, foldl_nan]
    · exact ih h _

lemma exp_710 : (2 : ℝ) ^ 1024 ≤ Real.exp 710 := by
  have h := Real.log_two_lt_d9
  have h2 : Real.log ((2 : ℝ) ^ 1024) ≤ 710 := by
    rw [Real.log_pow]; push_cast; linarith
  exact (Real.log_le_iff_le_exp (by positivity)).1 h2

lemma range_le {x y : ℝ} (h : |y| < 2 ^ 1024) (hx : |x| ≤ |y|) : ofReal x = num x := by
  unfold ofReal; rw [if_pos (lt_of_le_of_lt hx h)]

lemma ofReal_lt {x : ℝ} (h : |x| < 2 ^ 1024) : ofReal x = num x := if_pos h

lemma big : (10 : ℝ) ^ 300 < 2 ^ 1024 := by
  calc (10 : ℝ) ^ 300 = (10 ^ 3) ^ 100 := by rw [← pow_mul]
    _ ≤ (2 ^ 10) ^ 100 := pow_le_pow_left₀ (by norm_num) (by norm_num) 100
    _ = 2 ^ 1000 := by rw [← pow_mul]
    _ < 2 ^ 1024 := pow_lt_pow_right₀ (by norm_num) (by norm_num)

/-- Numbers far within the range. -/
lemma small {x : ℝ} {k : ℕ} (h : |x| ≤ 10 ^ k) (hk : k ≤ 300) : ofReal x = num x :=
  ofReal_lt ((h.trans (pow_le_pow_right₀ (by norm_num) hk)).trans_lt big)

lemma sub_num (x y : ℝ) : sub (num x) (num y) = ofReal (x - y) := by
  rw [sub_eq_add_neg]; rfl

lemma div_num (x : ℝ) {y : ℝ} (h : y ≠ 0) : div (num x) (num y) = ofReal (x / y) := if_neg h

lemma mul_num (x y : ℝ) : mul (num x) (num y) = ofReal (x * y) := rfl

lemma add_num (x y : ℝ) : add (num x) (num y) = ofReal (x + y) := rfl

/-- The exponential of the Urbach tail overflows far above `Et`. -/
lemma tail_inf {E Et Eu : ℝ} (hE : |E| < 2 ^ 1024) (ht : 0 ≤ Et) (hu : 0 < Eu) (h : Et + 710 * Eu ≤ E) :
    exp (div (sub (num E) (num Et)) (num Eu)) = inf false := by
  have hE0 : 0 ≤ E := by linarith
  have h0 : 0 < E - Et := by linarith
  have hs : sub (num E) (num Et) = num (E - Et) := by
    rw [sub_num]
    exact range_le hE (by rw [abs_of_pos h0, abs_of_nonneg hE0]; linarith)
  have hq : 710 ≤ (E - Et) / Eu := by rw [le_div_iff₀ hu]; linarith
  rw [hs, div_num _ hu.ne']
  unfold ofReal
  split_ifs with hr
  · change ofReal (Real.exp _) = _
    unfold ofReal
    have := exp_710.trans (Real.exp_le_exp.mpr hq)
    rw [if_neg (by rw [abs_of_pos (Real.exp_pos _)]; exact not_lt.2 this)]
    simp [(Real.exp_pos _).le]
  · have : ¬ (E - Et) / Eu < 0 := by linarith
    simp [exp, this]

lemma mul_inf_zero (a : Dbl) (b : Bool) : mul (mul a (inf b)) (num 0) = nan := by
  cases a with
  | num x =>
    by_cases hx : x = 0
    · simp [mul, hx]
    · simp [mul, hx]
  | inf c => simp [mul]
  | nan => rfl

/-- Far above `Et` the absorption is NaN, whatever the other parameters. -/
lemma eps2_nan (p : CodyPars) {E : ℝ} (hE : |E| < 2 ^ 1024) (ht : 0 ≤ p.Et) (hu : 0 < p.Eu) (h : p.Et + 710 * p.Eu ≤ E) : codyEps2D p (num E) = nan := by
  unfold codyEps2D
  rw [tail_inf hE ht hu h]
  have h0 : p.Et - E < 0 := by linarith
  have hs : sub (num p.Et) (num E) = num (p.Et - E) := by
    rw [sub_num]
    refine range_le hE ?_
    rw [abs_of_neg h0, abs_of_nonneg (by linarith)]; linarith
  have hh : Dbl.heaviside (sub (num p.Et) (num E)) 1 = num 0 := by
    rw [hs]; simp [Dbl.heaviside, heaviside, h0]
  simp only [hh, mul_inf_zero]
  rfl

/-! ## The wavelengths -/

lemma codyNode_bounds {j : ℕ} (hj : j < 1000) : 50 ≤ codyNode j ∧ codyNode j ≤ 10000 := by
  have : (j : ℝ) ≤ 999 := by exact_mod_cast (by omega : j ≤ 999)
  have h0 : (0 : ℝ) ≤ j := Nat.cast_nonneg j
  unfold codyNode
  constructor <;> nlinarith

lemma codyNode_lt {i j : ℕ} : codyNode i < codyNode j ↔ i < j := by
  unfold codyNode
  rw [add_lt_add_iff_left, mul_lt_mul_iff_left₀ (by norm_num), Nat.cast_lt]

lemma codyNode_le {i j : ℕ} : codyNode i ≤ codyNode j ↔ i ≤ j := by
  rw [← not_lt, codyNode_lt, not_lt]

/-- Positions of a wavelength among the nodes. -/
lemma count_nodes {lbda : ℝ} (h : codyNode 0 ≤ lbda) :
    ∃ k, ((List.range 1000).filter fun i => decide (codyNode i ≤ lbda)).length - 1 = k ∧ k < 1000 ∧ codyNode k ≤ lbda ∧ (k + 1 < 1000 → lbda < codyNode (k + 1)) := by
  classical
  -- the nodes up to `lbda` are an initial segment
  have key : ∀ n, 0 < n → ∃ k, k < n ∧ ((List.range n).filter fun i => decide (codyNode i ≤ lbda)).length = k + 1 ∧ codyNode k ≤ lbda ∧
      (k + 1 < n → lbda < codyNode (k + 1)) := by
    intro n
    induction n with
    | zero => intro h; omega
    | succ n ih =>
      intro _
      rw [List.range_succ, List.filter_append, List.length_append]
      rcases Nat.eq_zero_or_pos n with rfl | hn
      · exact ⟨0, by omega, by simp [h], h, by omega⟩
      · obtain ⟨k, hk, hl, h1, h2⟩ := ih hn
        by_cases hc : codyNode n ≤ lbda
        · have hkn : k + 1 = n := by
            by_contra hne
            have := h2 (by omega)
            have h3 := (codyNode_lt (i := k + 1) (j := n)).2 (by omega)
            linarith
          exact ⟨n, by omega, by simp [hc, hl, hkn], hc, by omega⟩
        · refine ⟨k, by omega, by simp [hc, hl], h1, fun _ => ?_⟩
          by_cases hkn : k + 1 < n
          · exact h2 hkn
          · have : k + 1 = n := by omega
            rw [this]; exact not_le.1 hc
  obtain ⟨k, hk, hl, h1, h2⟩ := key 1000 (by norm_num)
  exact ⟨k, by rw [hl]; rfl, hk, h1, h2⟩

lemma chord_nan {x0 x1 v : ℝ} {y0 y1 : Dbl} (h : y0 = nan ∨ y1 = nan) : chordD x0 x1 y0 y1 v = nan := by
  have hs : sub y1 y0 = nan := by
    rcases h with h | h
    · rw [h]; exact add_nan_right _
    · rw [h]; rfl
  have e1 : ∀ d w y, add (mul (div nan d) w) y = nan := fun d w y => by simp [div, mul, add]
  unfold chordD
  rw [hs]
  simp only [e1]
  rcases h with h | h
  · rw [h]; simp [Same]
  · rw [h]; cases y0 <;> simp [Same]

/-- The photon energy of a wavelength between the first and the last node. -/
lemma energyD_eq (K : PhysConst) {v : ℝ} (h1 : 1 ≤ v) (h2 : v ≤ 10 ^ 10) (hK : photon K 50 ≤ 10 ^ 10) : energyD K v = num (photon K v) ∧ 0 < photon K v := by
  have hpos : 0 < photon K v := div_pos (mul_pos K.c_pos K.h_pos) (by linarith)
  have hv : v ≠ 0 := by linarith
  have hm : mul (num v) (num 1e-9) = num (v * 1e-9) := by
    refine small (k := 1) ?_ (by norm_num)
    rw [abs_of_nonneg (by positivity)]
    nlinarith
  have hle : photon K v ≤ 50 * photon K 50 := by
    have e : photon K v * v = 50 * photon K 50 := by unfold photon; field_simp
    nlinarith
  refine ⟨?_, hpos⟩
  unfold energyD
  rw [hm, div_num _ (by positivity)]
  refine small (k := 12) ?_ (by norm_num)
  change |photon K v| ≤ _
  rw [abs_of_pos hpos]
  refine hle.trans ?_
  norm_num at hK ⊢
  linarith

lemma interp_ok (y : ℕ → Dbl) {lbda : ℝ} (h1 : 50 ≤ lbda) (h2 : lbda ≤ 10000) : ∃ r, interpD codyNode y 1000 lbda = .ok r := by
  have e0 : codyNode 0 = 50 := by simp [codyNode]
  have e999 : codyNode (1000 - 1) = 10000 := by norm_num [codyNode]
  unfold interpD
  rw [if_neg (by rw [e0, e999]; push Not; exact ⟨h1, h2⟩)]
  exact ⟨_, rfl⟩

/-- One NaN in a slice makes all sums over it NaN. -/
lemma kkr_nan {t : ℕ → Dbl} {x : ℕ → ℝ} {n i j : ℕ} (hj : j < n) (hij : (i + j) % 2 = 1) (ht : t j = nan) : kkrPointD t x n i = nan := by
  unfold kkrPointD
  have hm : nan ∈ (slice2 (if i % 2 = 0 then 1 else 0) n).map fun j => kkrTermD (t j) (x j) (x i) := by
    rw [List.mem_map]
    refine ⟨j, ?_, by rw [ht]; rfl⟩
    simp only [slice2, List.mem_filter, List.mem_range, decide_eq_true_eq]
    refine ⟨hj, ?_⟩
    split_ifs <;> omega
  rw [sumD_nan hm, mul_nan_right]

lemma eps1_nan (K : PhysConst) (p : CodyPars) (hK : photon K 50 ≤ 10 ^ 10) (ht : 0 ≤ p.Et) (hu : 0 < p.Eu) {i j : ℕ} (hj : j < 1000) (hij : (i + j) % 2 = 1)
    (h : p.Et + 710 * p.Eu ≤ photon K (codyNode j)) : codyEps1D K p i = nan := by
  obtain ⟨b1, b2⟩ := codyNode_bounds hj
  obtain ⟨e1, e2⟩ := energyD_eq K (v := codyNode j) (by linarith) (b2.trans (by norm_num)) hK
  refine kkr_nan hj hij ?_
  rw [e1]
  refine eps2_nan p ?_ ht hu h
  rw [abs_of_pos e2]
  have e : photon K (codyNode j) * codyNode j = 50 * photon K 50 := by
    have : codyNode j ≠ 0 := by linarith
    unfold photon; field_simp
  have : photon K (codyNode j) ≤ 10 ^ 10 := by nlinarith
  exact (this.trans (pow_le_pow_right₀ (by norm_num) (by norm_num))).trans_lt big

/-- **C140 is false.** If the photon energy at 50 nm (24.8 eV) lies more than 710 tail widths above the start of the tail, the real part is NaN at every
wavelength but the even nodes of the internal grid; if that at the second node (20.7 eV) does, it is NaN at every wavelength. -/
theorem C140_narrow_tail_refuted (K : PhysConst) (p : CodyPars) (hK : photon K 50 ≤ 10 ^ 10) (ht : 0 ≤ p.Et) (hu : 0 < p.Eu)
    (h : p.Et + 710 * p.Eu ≤ photon K 50) (lbda : ℝ) (h1 : 50 ≤ lbda) (h2 : lbda ≤ 10000)
    (hn : (∀ i : ℕ, lbda ≠ 50 + 2 * i * (9950 / 999)) ∨ p.Et + 710 * p.Eu ≤ photon K (50 + 9950 / 999)) :
    ∃ im, codyLorentzD K p lbda = .ok (nan, im) := by
  have hodd : ∀ i, i % 2 = 1 → codyEps1D K p i = nan := fun i hi => eps1_nan K p hK ht hu (j := 0) (by norm_num) (by omega) (by
    have : codyNode 0 = 50 := by simp [codyNode]
    rw [this]; exact h)
  have hev : (∀ i : ℕ, lbda ≠ 50 + 2 * i * (9950 / 999)) ∨ ∀ i, i % 2 = 0 → codyEps1D K p i = nan := by
    refine hn.imp_right fun h' i hi => eps1_nan K p hK ht hu (j := 1) (by norm_num) (by omega) ?_
    have : codyNode 1 = 50 + 9950 / 999 := by simp [codyNode]
    rw [this]; exact h'
  have hre : interpD codyNode (codyEps1D K p) 1000 lbda = .ok nan := by
    have e0 : codyNode 0 = 50 := by simp [codyNode]
    have e999 : codyNode (1000 - 1) = 10000 := by norm_num [codyNode]
    unfold interpD
    rw [if_neg (by rw [e0, e999]; push Not; exact ⟨h1, h2⟩)]
    obtain ⟨k, hk, hk1, -, -⟩ := count_nodes (lbda := lbda) (by rw [e0]; exact h1)
    simp only
    rw [hk]
    refine congrArg Except.ok ?_
    have hnode : codyNode k = lbda → codyEps1D K p k = nan := by
      intro hkl
      rcases Nat.mod_two_eq_zero_or_one k with hm | hm
      · rcases hev with hev | hev
        · exfalso
          refine hev (k / 2) ?_
          rw [← hkl]
          have : (k : ℝ) = 2 * (k / 2 : ℕ) := by exact_mod_cast (by omega : k = 2 * (k / 2))
          unfold codyNode
          rw [this]
        · exact hev k hm
      · exact hodd k hm
    split_ifs with c1 c2
    · exact hodd k (by omega)
    · exact hnode c2
    · refine chord_nan ?_
      rcases Nat.mod_two_eq_zero_or_one k with hm | hm
      · exact Or.inr (hodd _ (by omega))
      · exact Or.inl (hodd _ hm)
  unfold codyLorentzD
  rw [hre]
  exact ⟨_, rfl⟩

/-- C140: at photon energies more than 710 tail widths above the start of the tail the absorption is NaN, and so is the real part. -/
theorem C140_absorption_refuted (K : PhysConst) (p : CodyPars) (hK : photon K 50 ≤ 10 ^ 10) (ht : 0 ≤ p.Et) (hu : 0 < p.Eu) (lbda : ℝ) (h1 : 50 ≤ lbda)
    (h2 : lbda ≤ 10000) (h : p.Et + 710 * p.Eu ≤ photon K lbda) : codyLorentzD K p lbda = .ok (nan, nan) := by
  obtain ⟨e1, e2⟩ := energyD_eq K (v := lbda) (by linarith) (h2.trans (by norm_num)) hK
  have hle : photon K lbda ≤ photon K 50 := by
    have e : photon K lbda * lbda = 50 * photon K 50 := by
      have : lbda ≠ 0 := by linarith
      unfold photon; field_simp
    nlinarith
  have h3 : codyEps2D p (energyD K lbda) = nan := by
    rw [e1]
    refine eps2_nan p ?_ ht hu h
    rw [abs_of_pos e2]
    exact ((hle.trans hK).trans (pow_le_pow_right₀ (by norm_num) (by norm_num))).trans_lt big
  obtain ⟨r, hr⟩ := interp_ok (codyEps1D K p) h1 h2
  unfold codyLorentzD
  rw [hr, h3]
  have e3 : sub nan (mul (num 1) (num 0)) = nan := rfl
  simp only [Except.map, mul_nan_right, add_nan_right, e3]

/-- CODATA values: 24.8 eV at 50 nm. -/
noncomputable def codataConst : PhysConst := ⟨299792458, 4.135667696e-15, 8.8541878128e-12, by norm_num, by norm_num, by norm_num⟩

/-- The template of the class (`cody_lorentz.py:38-46`), with another width of the tail. -/
noncomputable def codyTemplate (Eu : ℝ) : CodyPars := ⟨1.6, 100, 1.8, 2.4, 0.8, 3.6, Eu⟩

/-- A tail of 20 meV instead of the 50 meV of the template: no wavelength gives a number. -/
example (lbda : ℝ) (h1 : 50 ≤ lbda) (h2 : lbda ≤ 10000) : ∃ im, codyLorentzD codataConst (codyTemplate 0.02) lbda = .ok (nan, im) :=
  C140_narrow_tail_refuted codataConst (codyTemplate 0.02) (by norm_num [photon, codataConst]) (by norm_num [codyTemplate]) (by norm_num [codyTemplate])
    (by norm_num [photon, codataConst, codyTemplate]) lbda h1 h2 (Or.inr (by norm_num [photon, codataConst, codyTemplate]))

/-- A tail of 30 meV: nothing at 632.8 nm. -/
example : ∃ im, codyLorentzD codataConst (codyTemplate 0.03) 632.8 = .ok (nan, im) :=
  C140_narrow_tail_refuted codataConst (codyTemplate 0.03) (by norm_num [photon, codataConst]) (by norm_num [codyTemplate]) (by norm_num [codyTemplate])
    (by norm_num [photon, codataConst, codyTemplate]) 632.8 (by norm_num) (by norm_num) (Or.inl fun i hi => by
      have h : (i : ℝ) * 19900 = 582.8 * 999 := by linarith
      have h' : ((i * 199000 : ℕ) : ℝ) = ((5828 * 999 : ℕ) : ℝ) := by push_cast; linarith
      have h'' := Nat.cast_injective h'
      omega)

end PyElli
