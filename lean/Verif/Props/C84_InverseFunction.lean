import Verif.Proofs.Newton
import Verif.Proofs.Smooth
import Verif.Spec.InverseFunction
import Verif.Props.C38_InvertMap
import Verif.Props.C78_Symbols
import Verif.Props.C83_Newton

/-!
# C84: `invert_map` computes the derivatives of the local inverse function
-/

namespace Audi

open MvPolynomial Spec GDual Filter Topology TMap

variable {es : List (Expr ℝ)} {ss : List String} {m : ℕ} {v : String → ℝ} {ψ : String → (String → ℝ) → ℝ}

/-- The evaluation of one function of a square system. -/
theorem SquareSystem.run_one (h : SquareSystem es ss m v) {e : Expr ℝ} (he : e ∈ es) :
    ∃ r, e.run v m = .ok r ∧ r.Valid ∧ r.p.syms = (ss.map fun s => "d" ++ s) ∧ r.order = m ∧
      ∃ P, Subst v m (e.sem ()) P ∧ EqUpTo m (r.toMv () : MvPolynomial String ℝ) (rename (fun s => "d" ++ s) P) := by
  classical
  let p : Unit → String → ℝ := fun _ => Function.extend (fun s => "d" ++ s) v 0
  have hp : ∀ (i : Unit) (s : String), p i ("d" ++ s) = Lanes.lane i (v s) := fun i s => d_append_injective.extend_apply _ _ s
  obtain ⟨r, hr, hg, hf⟩ := Expr.run_good (ι := Unit) h.max hp e (h.legal e he) fun _ => h.dom e he
  obtain ⟨r', hr', h1, h2⟩ := C78_expression_partial (ι := Unit) h.max h.order e (h.legal e he) (h.baseFree e he) fun _ => h.dom e he
  obtain rfl : r' = r := by rw [hr] at hr'; injection hr' with hr'; exact hr'.symm
  obtain ⟨P, hP⟩ := Expr.subst (C := ℝ) (m := m) () e (h.dom e he)
  have h3 := hP.out (a := p ()) (φ := fun s x => x ("d" ++ s)) (Q := fun s => MvPolynomial.C (v s) + X ("d" ++ s)) (fun s => by
    have := IsTaylor.coord (a := p ()) (m := m) ("d" ++ s)
    rw [hp () s] at this
    exact this) fun s => hp () s
  have h4 : aeval (fun s => MvPolynomial.C (v s) + X ("d" ++ s) - MvPolynomial.C (v s) : String → MvPolynomial String ℝ) P = rename (fun s => "d" ++ s) P := by
    rw [rename_eq_aeval]
    exact congrArg (fun q => aeval q P) (_root_.funext fun s => add_sub_cancel_left _ _)
  rw [h4] at h3
  have h5 := (e.run_subSyms hr).sub
  have h6 : r'.symbolSet = ss := List.Perm.eq_of_pairwise (le := (· < ·)) (fun u w _ _ h3 h4 => absurd h4 (lt_asymm h3)) h1 h.sorted
    ((List.perm_ext_iff_of_nodup (h1.imp fun h => h.ne) (h.sorted.imp fun h => h.ne)).2 fun s => (h2 s).trans (h.vars e he s))
  have h7 : e.vars ≠ [] := by
    obtain ⟨s, hs⟩ := List.exists_mem_of_ne_nil ss (by
      intro h0
      have := h.size
      rw [h0] at this
      exact h.nonempty (List.length_eq_zero_iff.1 this.symm))
    exact List.ne_nil_of_mem ((h.vars e he s).2 hs)
  refine ⟨r', hr, hg.valid, ?_, hf (Expr.full_of_vars (h.baseFree e he) h7), P, hP, (hg.taylor ()).unique h3⟩
  rw [← h6]
  unfold GDual.symbolSet
  rw [List.map_map]
  conv_lhs => rw [← List.map_id r'.p.syms]
  refine List.map_congr_left fun u hu => ?_
  obtain ⟨t, -, rfl⟩ := List.mem_map.1 (h5 u hu)
  simp

/-- The evaluation of a square system. -/
theorem SquareSystem.run (h : SquareSystem es ss m v) :
    ∃ f : List (GDual ℝ), List.Forall₂ (fun e d => e.run v m = .ok d) es f ∧ Admissible f ∧ IsSquare (ss.map fun s => "d" ++ s) m f ∧
      ∀ k (hk : k < es.length), ∃ P, Subst v m (es[k].sem ()) P ∧ EqUpTo m (polyAt f k) (rename (fun s => "d" ++ s) P) := by
  have : Nonempty (GDual ℝ) := ⟨GDual.ofCf 0⟩
  choose! r h1 h2 h3 h4 h5 using fun e (he : e ∈ es) => h.run_one he
  refine ⟨es.map r, ?_, ⟨?_, ?_, ?_⟩, ⟨?_, ?_, ?_, ?_⟩, fun k hk => ?_⟩
  · rw [List.forall₂_map_right_iff, List.forall₂_same]
    exact h1
  · exact fun d hd => by obtain ⟨e, he, rfl⟩ := List.mem_map.1 hd; exact h2 e he
  · intro d hd s hs
    obtain ⟨e, he, rfl⟩ := List.mem_map.1 hd
    rw [h3 e he] at hs
    obtain ⟨t, -, rfl⟩ := List.mem_map.1 hs
    exact ⟨t, rfl⟩
  · exact fun d hd => by obtain ⟨e, he, rfl⟩ := List.mem_map.1 hd; exact (h4 e he).trans_lt h.max
  · simpa using h.nonempty
  · exact fun d hd => by obtain ⟨e, he, rfl⟩ := List.mem_map.1 hd; exact h3 e he
  · exact fun d hd => by obtain ⟨e, he, rfl⟩ := List.mem_map.1 hd; exact h4 e he
  · simpa using h.size
  · obtain ⟨P, hP, hE⟩ := h5 es[k] (List.getElem_mem hk)
    refine ⟨P, hP, ?_⟩
    rw [polyAt_eq (by simpa using hk)]
    simpa using hE

/-- The linear part of the map is the Jacobian matrix. -/
theorem SquareSystem.linear (h : SquareSystem es ss m v) {f : List (GDual ℝ)}
    (hf : ∀ k (hk : k < es.length), ∃ P, Subst v m (es[k].sem ()) P ∧ EqUpTo m (polyAt f k) (rename (fun s => "d" ++ s) P)) :
    linearMatrix es.length (ss.map fun s => "d" ++ s) (mapPolys f) = jacobian es ss v := by
  ext i j
  obtain ⟨P, hP, hE⟩ := hf i i.2
  have hj : (j : ℕ) < ss.length := by rw [h.size]; exact j.2
  unfold linearMatrix jacobian
  rw [getD_polys, List.getD_eq_getElem (ss.map fun s => "d" ++ s) _ (by simpa using hj), List.getElem_map, List.getD_eq_getElem _ _ hj,
    hE _ (by simpa using h.order), List.get_eq_getElem, hP.isTaylor.pds_eq _ (by simpa using h.order), List.foldl_cons, List.foldl_nil]
  have e1 : (Finsupp.single ("d" ++ ss[(j : ℕ)]) 1 : String →₀ ℕ) = Finsupp.mapDomain (fun s => "d" ++ s) (Finsupp.single ss[(j : ℕ)] 1) := by
    rw [Finsupp.mapDomain_single]
  rw [e1, coeff_rename_mapDomain _ d_append_injective, coeff_pderiv]
  simp

/-- **C84 (partial).** Let the functions `es` of as many variables have the local inverse `ψ` at `v`, and a Jacobian determinant of absolute value at least `1e-10`. The evaluation of `es` on the
gduals `gdual(v s, s, m)` succeeds, `invert_map` of the results succeeds, and the `j`-th component of the result is of order `m`, vanishes at the centre and has the derivatives of the `j`-th
component of the local inverse, with respect to `p0, p1, …`, up to the degree `m`.

Restrictions: at most 10 variables unless `m = 1` (`C38_eleven_counterexample`), no variable but the first with one of the names `p0, p1, …` of the variables of the result
(`C38_names_counterexample`), order at most 30 if `atan`, `asin` or `acos` occurs, no power of a number to a gdual, each function has all the variables. -/
theorem C84_inverse_function_partial (h : SquareSystem es ss m v) (hψ : LocalInverse es ss m v ψ) (hdet : 1 / 10 ^ 10 ≤ |(jacobian es ss v).det|)
    (hn : es.length ≤ 10 ∨ m = 1) (hdis : ∀ s ∈ ss.tail, ∀ k < es.length, s ≠ "p" ++ toString k) :
    ∃ f g : List (GDual ℝ), List.Forall₂ (fun e d => e.run v m = .ok d) es f ∧ invert f = .ok g ∧ g.length = es.length ∧
      ∀ j (hj : j < g.length), g[j].getOrder = m ∧ ReadsDerivatives g[j] m (fun _ : Unit => fun x => ψ (ss.getD j "") x - v (ss.getD j "")) fun _ => 0 := by
  classical
  obtain ⟨f, f1, f2, f3, f4⟩ := h.run
  have hlen : f.length = es.length := f1.length_eq.symm
  have hlin := h.linear f4
  have hd' : ((1 / 10 ^ 10 : ℚ) : ℝ) ≤ |(linearMatrix f.length (ss.map fun s => "d" ++ s) (mapPolys f)).det| := by
    rw [hlen, hlin]; push_cast; exact hdet
  have hn' : f.length ≤ 10 ∨ m = 1 := by rwa [hlen]
  have hdis' : ∀ s ∈ (ss.map fun s => "d" ++ s).tail, s ∉ inverseSymbols f.length := by
    intro s hs hs'
    rw [← List.map_tail] at hs
    obtain ⟨t, ht, rfl⟩ := List.mem_map.1 hs
    unfold inverseSymbols at hs'
    obtain ⟨k, hk, hk'⟩ := List.mem_map.1 hs'
    rw [dp_eq] at hk'
    exact hdis t ht k (by rw [← hlen]; simpa using hk) (d_append_inj hk').symm
  obtain ⟨g, g1, -, -, -, g5⟩ := invert_square f2 f3 hd'
  obtain ⟨k1, -, -⟩ := g5 hdis'
  have glen : g.length = es.length := k1.len.trans hlen
  refine ⟨f, g, f1, g1, glen, fun j hj => ⟨k1.order _ (List.getElem_mem hj), ?_⟩⟩
  have hjs : j < ss.length := by rw [h.size, ← glen]; exact hj
  have hleft := C38_left_inverse_partial f2 f3 hd' hn' hdis' g1 j (by rw [hlen, ← glen]; exact hj)
  -- the expansions of the local inverse
  choose! Ψ hΨ using hψ.smooth
  let q : String → MvPolynomial String ℝ := fun s => if s ∈ ss then rename (fun s => "d" ++ s) (Ψ s) - MvPolynomial.C (v s) else 0
  let Q : String → MvPolynomial String ℝ := fun s => if s ∈ ss then rename (fun s => "d" ++ s) (Ψ s) else MvPolynomial.C (v s)
  let φ : String → (String → ℝ) → ℝ := fun s z => atPoint ss v ψ (shiftBy 0 z) s
  have hφ : ∀ s, IsTaylor 0 m (φ s) (Q s) := fun s => by
    simp only [φ, Q, atPoint]
    split_ifs with hs
    · exact isTaylor_shift d_append_injective (hΨ s hs)
    · exact IsTaylor.const _
  have hφ0 : ∀ s, φ s 0 = v s := fun s => by
    simp only [φ, atPoint, shiftBy_zero]
    split_ifs with hs
    · exact hψ.init s hs
    · rfl
  have hq : ∀ s, Q s - MvPolynomial.C (v s) = q s := fun s => by
    simp only [q, Q]
    split_ifs
    · rfl
    · exact sub_self _
  have hq0 : ∀ s, q s ∈ idealOfVars String ℝ := fun s => by
    rw [mem_ideal_iff, ← hq, coeff_sub, ← (hφ s).val, hφ0, coeff_C, if_pos rfl, sub_self]
  let α : String → MvPolynomial String ℝ := Function.extend (fun s => "d" ++ s) q 0
  have hα : ∀ s, α ("d" ++ s) = q s := fun s => d_append_injective.extend_apply _ _ s
  have hα0 : ∀ u, α u ∈ idealOfVars String ℝ := fun u => by
    by_cases hu : ∃ s, "d" ++ s = u
    · obtain ⟨s, rfl⟩ := hu; rw [hα]; exact hq0 s
    · simp only [α]; rw [Function.extend_apply' _ _ _ hu]; exact zero_mem _
  -- the map at the local inverse
  have hF : ∀ k < es.length, EqUpTo m (aeval α (polyAt f k - MvPolynomial.C (coeff 0 (polyAt f k)))) (X ("d" ++ ("p" ++ toString k))) := by
    intro k hk
    obtain ⟨P, hP, hE⟩ := f4 k hk
    have h1 := hP.out hφ hφ0
    simp only [hq] at h1
    have h2 : IsTaylor 0 m (fun z => es[k].sem () fun s => φ s z) (MvPolynomial.C (es[k].sem () v) + X ("d" ++ ("p" ++ toString k))) := by
      have h3 := (IsTaylor.const (a := (0 : String → ℝ)) (m := m) (es[k].sem () v)).add (IsTaylor.coord (a := (0 : String → ℝ)) (m := m) ("d" ++ ("p" ++ toString k)))
      rw [Pi.zero_apply, MvPolynomial.C_0, zero_add] at h3
      refine h3.congr_fun ?_
      filter_upwards [(tendsto_shiftBy 0).eventually (hψ.eqn ⟨k, hk⟩)] with z hz
      refine Eq.trans ?_ hz.symm
      simp [shiftBy]
    have h4 := h1.unique h2
    have h5 : aeval α (rename (fun s => "d" ++ s) P) = aeval q P := by
      rw [aeval_rename]
      exact congrArg (fun r => aeval r P) (_root_.funext hα)
    have h6 : coeff 0 (polyAt f k) = es[k].sem () v := by
      rw [hE 0 (by simp)]
      exact (constantCoeff_rename _ P).trans hP.isTaylor.val.symm
    have h7 := (hE.aeval hα0)
    rw [h5] at h7
    rw [map_sub, algHom_C, algebraMap_eq, h6]
    intro e he
    rw [coeff_sub, h7 e he, h4 e he, coeff_add, add_sub_cancel_left]
  -- the inverse
  have hG := hleft.aeval hα0
  rw [aeval_X, List.getD_eq_getElem (ss.map fun s => "d" ++ s) _ (by simpa using hjs), List.getElem_map, hα] at hG
  have hGs : polyAt g j ∈ supported ℝ {t | t ∈ invNames f.length} := by
    rw [polyAt_eq hj]; exact k1.supp _ (List.getElem_mem hj)
  let β : String → MvPolynomial String ℝ := fun u =>
    if u ∈ invNames f.length then aeval α (replacement ((inverseSymbols f.length).zip (dropConst (mapPolys f))) u) else X u
  have hndp : (inverseSymbols f.length).Nodup := by
    unfold inverseSymbols
    exact List.nodup_range.map fun a b h => toString_nat_inj (append_left_inj' h)
  have hβ : ∀ u, EqUpTo m (β u) (X u) := fun u => by
    simp only [β]
    split_ifs with hu
    · obtain ⟨k, hk, rfl⟩ := mem_invNames.mp hu
      have e1 : k < (inverseSymbols f.length).length := by unfold inverseSymbols; simpa using hk
      have e2 : k < (dropConst (mapPolys f)).length := by unfold dropConst mapPolys; simpa using hk
      have e3 := replacement_zip (K := ℝ) hndp e1 e2
      have e4 : (inverseSymbols f.length)[k] = "d" ++ ("p" ++ toString k) := by
        rw [← dp_eq]; unfold inverseSymbols; simp
      rw [e4] at e3
      rw [e3, ← List.getD_eq_getElem _ 0 e2, getD_dropConst]
      exact hF k (by rw [← hlen]; exact hk)
    · exact fun _ _ => rfl
  have hβ0 : ∀ u, β u ∈ idealOfVars String ℝ := fun u => by
    rw [mem_ideal_iff, hβ u 0 (by simp)]; simp
  have h8 : aeval α (substAt ((inverseSymbols f.length).zip (dropConst (mapPolys f))) ((mapPolys g).getD j 0)) = aeval β (polyAt g j) := by
    rw [getD_polys]
    unfold substAt
    rw [← AlgHom.comp_apply, comp_aeval]
    exact aeval_congr_supported hGs fun u hu => (if_pos hu).symm
  rw [h8] at hG
  have h9 : EqUpTo m (aeval β (polyAt g j)) (polyAt g j) := by
    have := EqUpTo.aeval_congr hβ0 (fun u => X_mem u) hβ (polyAt g j)
    rwa [aeval_X_left, AlgHom.id_apply] at this
  have h10 : EqUpTo m (q ss[j]) (g[j].toMv ()) := by
    rw [polyAt_eq hj] at h9 hG
    exact fun e he => (hG e he).symm.trans (h9 e he)
  have h11 : IsTaylor 0 m (fun z => φ ss[j] z - v ss[j]) (g[j].toMv ()) := by
    have := (hφ ss[j]).sub (IsTaylor.const (a := (0 : String → ℝ)) (m := m) (v ss[j]))
    rw [hq] at this
    exact this.congr_poly h10
  have hmem := List.getElem_mem hjs
  intro l hl dict hk hpos hcount
  obtain ⟨c, hc, hlane⟩ := getDerivativeDict_count (ι := Unit) (K := ℝ) (k1.valid _ (List.getElem_mem hj)) (l := l.map fun s => "d" ++ s)
    (by rw [List.length_map]; exact hl.trans (k1.order _ (List.getElem_mem hj)).ge) hk hpos hcount
  refine ⟨c, hc, fun i => ?_⟩
  rw [hlane i, ← h11.pds_eq _ (by rwa [List.length_map]), List.getD_eq_getElem _ _ hjs]
  have h12 : (fun z => φ ss[j] z - v ss[j]) = fun z => (fun x => ψ ss[j] x - v ss[j]) fun s => z ("d" ++ s) := _root_.funext fun z => by
    simp only [φ, atPoint, if_pos hmem]
    congr 2
    exact _root_.funext fun s => zero_add _
  rw [h12]
  exact pds_rename (𝕜 := ℝ) l (fun x => ψ ss[j] x - v ss[j]) 0

theorem digits_injective : Function.Injective fun k : Fin es.length => "p" ++ toString (k : ℕ) := fun _ _ h => Fin.ext (toString_nat_inj (append_left_inj' h))

/-- **C84 (existence).** Functions with a Jacobian determinant different from zero have a local inverse as assumed in `C84_inverse_function_partial`. -/
theorem C84_exists (h : SquareSystem es ss m v) (hdet : (jacobian es ss v).det ≠ 0) : ∃ ψ, LocalInverse es ss m v ψ := by
  have hnd : ss.Nodup := h.sorted.imp fun h => h.ne
  have hlt : ∀ j : Fin es.length, (j : ℕ) < ss.length := fun j => by rw [h.size]; exact j.2
  obtain ⟨Ψ, h0, h1, h2⟩ := exists_local_inverse (C := ℝ) (ι := Unit) () (E := fun k : Fin es.length => es.get k) (s := fun j => ss[(j : ℕ)]'(hlt j))
    (fun i j hij => Fin.ext ((List.Nodup.getElem_inj_iff hnd).1 hij)) (v := v) (fun k => h.dom _ (List.get_mem _ _)) (m := m) (by have := h.order; omega) (by
      have : (Matrix.of fun k j : Fin es.length => pds [ss[(j : ℕ)]'(hlt j)] ((es.get k).sem ()) v) = jacobian es ss v := by
        ext k j
        unfold jacobian
        rw [List.getD_eq_getElem _ _ (hlt j)]
        rfl
      rw [this]
      exact hdet.isUnit)
  let q : (String → ℝ) → Fin es.length → ℝ := fun x k => x ("p" ++ toString (k : ℕ))
  have hq : Continuous q := continuous_pi fun k => continuous_apply _
  have hidx : ∀ s ∈ ss, ss.idxOf s < es.length := fun s hs => by rw [← h.size]; exact List.idxOf_lt_length_of_mem hs
  refine ⟨fun s x => if hs : s ∈ ss then Ψ (q x) ⟨ss.idxOf s, hidx s hs⟩ else 0, fun s hs => ?_, fun s hs => ?_, fun k => ?_⟩
  · simp only [dif_pos hs]
    obtain ⟨P, hP⟩ := exists_isTaylor (h1 ⟨ss.idxOf s, hidx s hs⟩)
    exact ⟨_, isTaylor_restrict (a := 0) digits_injective hP⟩
  · simp only [dif_pos hs]
    refine (h0 _).trans ?_
    simp
  · have h3 : Tendsto q (𝓝 0) (𝓝 0) := hq.tendsto 0
    filter_upwards [h3.eventually h2] with x hx
    refine Eq.trans ?_ (hx k)
    congr 1
    funext t
    unfold atPoint point
    have hinj : Function.Injective fun j : Fin es.length => ss[(j : ℕ)]'(hlt j) := fun i j hij => Fin.ext ((List.Nodup.getElem_inj_iff hnd).1 hij)
    split_ifs with ht
    · have h4 := hinj.extend_apply (Ψ (q x)) v ⟨ss.idxOf t, hidx t ht⟩
      simp only [List.getElem_idxOf] at h4
      simp only [dif_pos ht]
      exact h4.symm
    · refine (Function.extend_apply' _ _ _ ?_).symm
      rintro ⟨j, rfl⟩
      exact ht (List.getElem_mem _)

/-- **C84 (partial).** Without assumption on the local inverse: it exists, and `invert_map` gives its derivatives. For the restrictions see `C84_inverse_function_partial`. -/
theorem C84_derivatives_partial (h : SquareSystem es ss m v) (hdet : 1 / 10 ^ 10 ≤ |(jacobian es ss v).det|)
    (hn : es.length ≤ 10 ∨ m = 1) (hdis : ∀ s ∈ ss.tail, ∀ k < es.length, s ≠ "p" ++ toString k) :
    ∃ ψ, LocalInverse es ss m v ψ ∧ ∃ f g : List (GDual ℝ), List.Forall₂ (fun e d => e.run v m = .ok d) es f ∧ invert f = .ok g ∧ g.length = es.length ∧
      ∀ j (hj : j < g.length), g[j].getOrder = m ∧ ReadsDerivatives g[j] m (fun _ : Unit => fun x => ψ (ss.getD j "") x - v (ss.getD j "")) fun _ => 0 := by
  obtain ⟨ψ, hψ⟩ := C84_exists h fun h0 => by rw [h0] at hdet; norm_num at hdet
  exact ⟨ψ, hψ, C84_inverse_function_partial h hψ hdet hn hdis⟩

/-- `exp(x + y)` and `x - y` at the origin. -/
def expSystem : List (Expr ℝ) := [.fn .exp (.bin .add (.var "x") (.var "y")), .bin .sub (.var "x") (.var "y")]

/-- The local inverse: `x = (log(1 + p0) + p1) / 2`, `y = (log(1 + p0) - p1) / 2`. -/
noncomputable def expInverse (s : String) (x : String → ℝ) : ℝ := if s = "x" then (Real.log (1 + x "p0") + x "p1") / 2 else (Real.log (1 + x "p0") - x "p1") / 2

theorem expSystem_square : SquareSystem expSystem ["x", "y"] 20 0 := by
  refine ⟨by simp [expSystem], rfl, by decide, by decide, by decide, ?_, ?_, ?_, ?_⟩
  all_goals simp only [expSystem, List.forall_mem_cons, List.not_mem_nil, IsEmpty.forall_iff, implies_true, and_true]
  · simp [Expr.Legal, Fn.MaxOrder]
  · simp [Expr.BaseFree]
  · simp [Expr.vars]
  · simp [Expr.Dom, Op.Dom, Fn.Dom]

theorem expSystem_inverse : LocalInverse expSystem ["x", "y"] 20 0 expInverse := by
  refine ⟨fun s _ => ?_, fun s _ => ?_, fun k => ?_⟩
  · by_cases hs : s = "x"
    · obtain ⟨P, hP⟩ := Expr.subst (C := ℝ) (ι := Unit) (m := 20) () (v := 0) (.right .div (.bin .add (.fn .log (.left .add 1 (.var "p0"))) (.var "p1")) 2)
        (by simp [Expr.Dom, Op.Dom, Fn.Dom, Expr.sem, Op.real, Lanes.lane])
      refine ⟨P, hP.isTaylor.congr_fun (Eventually.of_forall fun x => ?_)⟩
      simp [expInverse, hs, Expr.sem, Op.real, Fn.real, Lanes.lane]
    · obtain ⟨P, hP⟩ := Expr.subst (C := ℝ) (ι := Unit) (m := 20) () (v := 0) (.right .div (.bin .sub (.fn .log (.left .add 1 (.var "p0"))) (.var "p1")) 2)
        (by simp [Expr.Dom, Op.Dom, Fn.Dom, Expr.sem, Op.real, Lanes.lane])
      refine ⟨P, hP.isTaylor.congr_fun (Eventually.of_forall fun x => ?_)⟩
      simp [expInverse, hs, Expr.sem, Op.real, Fn.real, Lanes.lane]
  · simp [expInverse]
  · have hpos : ∀ᶠ x : String → ℝ in 𝓝 0, 0 < 1 + x "p0" := by
      have : Continuous fun x : String → ℝ => 1 + x "p0" := by fun_prop
      exact this.tendsto 0 |>.eventually (lt_mem_nhds (by simp))
    filter_upwards [hpos] with x hx
    fin_cases k
    · have e1 : (Real.log (1 + x "p0") + x "p1") / 2 + (Real.log (1 + x "p0") - x "p1") / 2 = Real.log (1 + x "p0") := by ring
      simp [expSystem, atPoint, expInverse, Expr.sem, Op.real, Fn.real, e1, Real.exp_log hx]
      rfl
    · simp [expSystem, atPoint, expInverse, Expr.sem, Op.real]
      ring_nf
      rfl

theorem expSystem_det : (jacobian expSystem ["x", "y"] 0).det = -2 := by
  have h1 : jacobian expSystem ["x", "y"] 0 = !![1, 1; 1, -1] := by
    have hyx : "y" ≠ "x" := by decide
    ext i j
    fin_cases i <;> fin_cases j <;> simp only [jacobian, pds, pd] <;> refine HasDerivAt.deriv ?_
    · have : HasDerivAt (fun t : ℝ => Real.exp t) (Real.exp 0) 0 := Real.hasDerivAt_exp 0
      simpa [expSystem, Expr.sem, Op.real, Fn.real, hyx] using this
    · have : HasDerivAt (fun t : ℝ => Real.exp t) (Real.exp 0) 0 := Real.hasDerivAt_exp 0
      simpa [expSystem, Expr.sem, Op.real, Fn.real, hyx] using this
    · have : HasDerivAt (fun t : ℝ => t) 1 0 := hasDerivAt_id 0
      simpa [expSystem, Expr.sem, Op.real, Fn.real, hyx] using this
    · have : HasDerivAt (fun t : ℝ => -t) (-1) 0 := (hasDerivAt_id 0).neg
      simpa [expSystem, Expr.sem, Op.real, Fn.real, hyx] using this
  rw [h1]
  exact (Matrix.det_fin_two_of _ _ _ _).trans (by norm_num)

/-- The system meets the hypotheses. -/
example : ∃ f g : List (GDual ℝ), List.Forall₂ (fun e d => e.run 0 20 = .ok d) expSystem f ∧ invert f = .ok g ∧ g.length = 2 ∧
    ∀ j (hj : j < g.length), g[j].getOrder = 20 ∧ ReadsDerivatives g[j] 20 (fun _ : Unit => fun x => expInverse (["x", "y"].getD j "") x - 0) fun _ => 0 :=
  C84_inverse_function_partial expSystem_square expSystem_inverse (by rw [expSystem_det]; norm_num) (Or.inl (by decide)) (by decide)

example : ∃ ψ, LocalInverse expSystem ["x", "y"] 20 0 ψ := C84_exists expSystem_square (by rw [expSystem_det]; norm_num)

example : ∃ ψ, LocalInverse expSystem ["x", "y"] 20 0 ψ ∧ ∃ f g : List (GDual ℝ), List.Forall₂ (fun e d => e.run 0 20 = .ok d) expSystem f ∧ invert f = .ok g ∧ g.length = 2 ∧
    ∀ j (hj : j < g.length), g[j].getOrder = 20 ∧ ReadsDerivatives g[j] 20 (fun _ : Unit => fun x => ψ (["x", "y"].getD j "") x - 0) fun _ => 0 :=
  C84_derivatives_partial expSystem_square (by rw [expSystem_det]; norm_num) (Or.inl (by decide)) (by decide)

end Audi
