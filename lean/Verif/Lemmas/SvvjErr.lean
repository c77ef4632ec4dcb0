import Verif.Lemmas.Svvj

/-! The error of the central moment of order 4 of `mdl_svvj`, which comes from `int_e_IEZ_poly`. -/

namespace Ajd.Svvj
open Poly Ito Utils MvPolynomial ItoCond

/-- `recursive_IEII` with the table as a function -/
def recF (iez : ℚ → ℤ → JPoly → Except PyErr JPoly) (look : Idx → Except PyErr JPoly) (i : Idx) :
    Except PyErr JPoly :=
  mergeLoop (fun q : Call => do
    let p ← look q.idx
    if q.tp = 4 then iez q.c q.m p else ItoCond.intEPoly q.c q.tp q.m p) (calls i) ⟨ItoCond.kf, []⟩

/-- the joint moment computed by recursion without a table, for orders up to `n + 2` -/
def pureMom (iez : ℚ → ℤ → JPoly → Except PyErr JPoly) : ℕ → Idx → Except PyErr JPoly
  | 0, i => lookup ItoCond.T0 i
  | n + 1, i => if lev i ≤ n + 2 then pureMom iez n i else recF iez (pureMom iez n) i

theorem mergeLoop_congr {α K : Type} [DecidableEq K] (f g : α → Except PyErr (Poly K)) (A : List α)
    (acc : Poly K) (h : ∀ a ∈ A, f a = g a) : mergeLoop f A acc = mergeLoop g A acc := by
  unfold mergeLoop
  induction A generalizing acc with
  | nil => rfl
  | cons a t ih =>
    rw [List.foldlM_cons, List.foldlM_cons, h a (by simp)]
    congr 1
    funext s
    exact ih s fun b hb => h b (by simp [hb])

theorem pureMom_step (iez : ℚ → ℤ → JPoly → Except PyErr JPoly) (OK : Idx → ItoCond.Par → Prop)
    (G : Idx → JKey → Prop)
    (hrec : ∀ i, Valid i → 3 ≤ lev i → ∀ T : TabK JKey,
      TabGood (Good OK G) (fun j => Valid j ∧ (lev j = lev i - 2 ∨ lev j = lev i - 1)) T →
      ∃ v, recursiveWith iez i T = .ok v ∧ Good OK G i v) (i : Idx) (hi : Valid i)
    (hl : 3 ≤ lev i) (T : TabK JKey)
    (hT : TabGood (fun j P => pureMom iez ((lev j).toNat - 2) j = .ok P ∧ Good OK G j P)
      (fun j => Valid j ∧ (lev j = lev i - 2 ∨ lev j = lev i - 1)) T) :
    ∃ v, recursiveWith iez i T = .ok v ∧ pureMom iez ((lev i).toNat - 2) i = .ok v ∧
      Good OK G i v := by
  obtain ⟨v, e, g⟩ := hrec i hi hl T fun j hj => by
    obtain ⟨P, h1, h2⟩ := hT j hj
    exact ⟨P, h1, h2.2⟩
  refine ⟨v, e, ?_, g⟩
  obtain ⟨n, hn⟩ : ∃ n, (lev i).toNat - 2 = n + 1 := ⟨(lev i).toNat - 3, by omega⟩
  rw [hn, pureMom, if_neg (by omega), ← e, recF, recursiveWith]
  apply mergeLoop_congr
  intro q hq
  obtain ⟨hv, hlev, _⟩ := calls_idx i hi q hq
  obtain ⟨P, h1, h2, _⟩ := hT q.idx ⟨hv, hlev⟩
  have : pureMom iez n q.idx = lookup T q.idx := by
    rw [lookup, h1]
    rcases hlev with hlev | hlev
    · have hn' : n = ((lev q.idx).toNat - 2) + 1 ∨ n = (lev q.idx).toNat - 2 := by omega
      rcases hn' with h | h
      · rw [h, pureMom, if_pos (by omega), h2]
      · rw [h, h2]
    · rw [show n = (lev q.idx).toNat - 2 by omega, h2]
  rw [this]

theorem pureMom_T0 (iez : ℚ → ℤ → JPoly → Except PyErr JPoly) (OK : Idx → ItoCond.Par → Prop)
    (G : Idx → JKey → Prop)
    (hT : TabGood (Good OK G) (fun j => Valid j ∧ lev j ≤ 2) ItoCond.T0) :
    TabGood (fun j P => pureMom iez ((lev j).toNat - 2) j = .ok P ∧ Good OK G j P)
      (fun j => Valid j ∧ lev j ≤ 2) ItoCond.T0 := by
  intro j hj
  obtain ⟨P, h1, h2⟩ := hT j hj
  refine ⟨P, h1, ?_, h2⟩
  rw [show (lev j).toNat - 2 = 0 by have := hj.2; omega, pureMom, lookup, h1]

/-- the difference between the code and the repaired program for `(2, 0, 2)` -/
def diff202 : List (JKey × ℚ) := [
  (⟨[0, 0, 2, 0, 1, 0], ⟨[2], [0], [], []⟩, []⟩, -1),
  (⟨[1, 0, 2, 0, 1, 0], ⟨[2], [1], [], []⟩, []⟩, -1),
  (⟨[0, 0, 2, 0, 1, 0], ⟨[3], [1], [], []⟩, []⟩, 1),
  (⟨[1, 0, 2, 0, 1, 0], ⟨[1], [0], [], []⟩, []⟩, 1)]

/-- the difference between the code and the repaired program for `(0, 0, 4)` -/
def diff004 : List (JKey × ℚ) := [
  (⟨[-1, 0, 2, 0, 1, 0], ⟨[1], [0], [], []⟩, []⟩, 6),
  (⟨[0, 0, 2, 0, 1, 0], ⟨[0], [0], [], []⟩, []⟩, -6),
  (⟨[-1, 0, 2, 0, 1, 0], ⟨[0], [1], [], []⟩, []⟩, -6),
  (⟨[0, 0, 2, 0, 1, 0], ⟨[-1], [1], [], []⟩, []⟩, 6)]

def diffOf (i : Idx) : Option (List (JKey × ℚ)) :=
  match pureMom intEIEZ 2 i, pureMom intEIEZFixed 2 i with
  | .ok p, .ok q => (match p.sub q with
    | .ok r => some r.items
    | .error _ => none)
  | _, _ => none

theorem diff202_eq : diffOf (2, 0, 2) = some diff202 := by decide +kernel
theorem diff004_eq : diffOf (0, 0, 4) = some diff004 := by decide +kernel
theorem diff400_eq : diffOf (4, 0, 0) = some [] := by decide +kernel

theorem ev_nz {OK : Idx → ItoCond.Par → Prop} {G : Idx → JKey → Prop} {i : Idx} {P : JPoly}
    (h : Good OK G i P) (hi : i.2.2 % 2 = 1) (f : JKey → ℝ) : ev f P = 0 := by
  unfold ev
  apply List.sum_eq_zero
  intro y hy
  obtain ⟨e, he, rfl⟩ := List.mem_map.1 hy
  by_cases h0 : e.2 = 0
  · simp [h0]
  · have := h.nz e he h0
    simp only at this
    omega

theorem diff_ev {OK OK' : Idx → ItoCond.Par → Prop} {G G' : Idx → JKey → Prop} {i : Idx}
    {P Q : JPoly} (hP : Good OK G i P) (hQ : Good OK' G' i Q) (eP : pureMom intEIEZ 2 i = .ok P)
    (eQ : pureMom intEIEZFixed 2 i = .ok Q) (L : List (JKey × ℚ)) (hd : diffOf i = some L)
    (f : JKey → ℝ) : ev f P = ev f Q + (L.map fun e => e.2 • f e.1).sum := by
  obtain ⟨r, e, _, _, _, _, hr⟩ := sub_spec P Q (hP.kf.trans hQ.kf.symm) hQ.wf
  rw [diffOf, eP, eQ] at hd
  simp only [e, Option.some.injEq] at hd
  rw [← hd]
  have := hr f
  rw [ev] at this
  rw [this]
  ring

/-- the combinations of order 4 in loop order -/
theorem combs4 : combsDown 2 4 = [[4, 0, 0], [3, 1, 0], [3, 0, 1], [2, 2, 0], [2, 1, 1], [2, 0, 2],
    [1, 3, 0], [1, 2, 1], [1, 1, 2], [1, 0, 3], [0, 4, 0], [0, 3, 1], [0, 2, 2], [0, 1, 3],
    [0, 0, 4]] := by decide

/-- the error of the fourth central moment when `ρ = σ / (2k)` -/
theorem err4 : ∃ r, cmomentY 4 = .ok r ∧ r.Keys KC ∧ ∀ (p : Par) (E : Fsv1.Rv →ₗ[ℝ] ℝ), p.OK →
    CondLaw p E → p.ρ - p.σ / (2 * p.k) = 0 → ev (vC p) r = E (ybar p ^ 4) +
      (6 * wgt p 2 0 2 * (diff202.map fun e => e.2 • jval p.cir p.h e.1).sum +
        wgt p 0 0 4 * (diff004.map fun e => e.2 • jval p.cir p.h e.1).sum) := by
  obtain ⟨ms, e, hl, hms⟩ := cmomsTo_spec _ (recursiveWith intEIEZ) keyC kfC
    (pureMom_step intEIEZ ItoCond.Right KG code_rec) ItoCond.T0
    (pureMom_T0 intEIEZ ItoCond.Right KG code_T0) first 4
  obtain ⟨ms', e', hl', hms'⟩ := cmomsTo_spec _ (recursiveWith intEIEZFixed) keyC kfC
    (pureMom_step intEIEZFixed (fun _ _ => True) (fun _ _ => True) fixed_rec) ItoCond.T0
    (pureMom_T0 intEIEZFixed (fun _ _ => True) (fun _ _ => True) fixed_T0) first 4
  have h2 : 2 < ms.length := by omega
  obtain ⟨P, hP, hr⟩ := hms 2 _ (List.getElem?_eq_getElem h2)
  obtain ⟨P', hP', _⟩ := hms' 2 _ (List.getElem?_eq_getElem (by omega : 2 < ms'.length))
  have h4 : (((2 : ℕ) : ℤ) + 2) = ((4 : ℕ) : ℤ) := by norm_num
  rw [h4] at hP hr hP'
  refine ⟨ms[2], ?_, ?_, ?_⟩
  · have : (first ++ ms).getLast? = some ms[2] := by
      rw [List.getLast?_append, List.getLast?_eq_getElem?, show ms.length - 1 = 2 by omega,
        List.getElem?_eq_getElem h2]
      rfl
    change (do let ms ← cmomsTo (recursiveWith intEIEZ) keyC kfC ItoCond.T0 first ((4 : ℕ) : ℤ); pyLast ms) = _
    rw [e, ok_bind, pyLast, this]
  · rw [hr]
    exact removeZero_Keys _ _ (level_keys 4 P fun i h1 h2 => (hP i h1 h2).2).1
  intro p E hp hE hρ
  rw [hr, ev_removeZero, ← level_value hp hE 4 P' (fun i h1 h2 => (hP' i h1 h2).2)
    (fun _ _ _ => trivial), level_sum p 4 P fun i h1 h2 => (hP i h1 h2).2.keys,
    level_sum p 4 P' fun i h1 h2 => (hP' i h1 h2).2.keys, combs4]
  have hz : ∀ a b c, wgt p a (b + 1) c = 0 := by
    intro a b c
    simp [wgt, hρ]
  have v : ∀ a b c : ℕ, Valid ((a : ℤ), (b : ℤ), (c : ℤ)) := by intros; simp [Valid]
  have c1 := fun a b c h => hP ((a : ℕ), (b : ℕ), (c : ℕ)) (v a b c) h
  have c2 := fun a b c h => hP' ((a : ℕ), (b : ℕ), (c : ℕ)) (v a b c) h
  have d1 := diff_ev (c1 2 0 2 rfl).2 (c2 2 0 2 rfl).2 (c1 2 0 2 rfl).1 (c2 2 0 2 rfl).1 _ diff202_eq
    (jval p.cir p.h)
  have d2 := diff_ev (c1 0 0 4 rfl).2 (c2 0 0 4 rfl).2 (c1 0 0 4 rfl).1 (c2 0 0 4 rfl).1 _ diff004_eq
    (jval p.cir p.h)
  have d3 := diff_ev (c1 4 0 0 rfl).2 (c2 4 0 0 rfl).2 (c1 4 0 0 rfl).1 (c2 4 0 0 rfl).1 _ diff400_eq
    (jval p.cir p.h)
  have o1 := ev_nz (c1 3 0 1 rfl).2 rfl (jval p.cir p.h)
  have o2 := ev_nz (c2 3 0 1 rfl).2 rfl (jval p.cir p.h)
  have o3 := ev_nz (c1 1 0 3 rfl).2 rfl (jval p.cir p.h)
  have o4 := ev_nz (c2 1 0 3 rfl).2 rfl (jval p.cir p.h)
  simp only [List.map_cons, List.map_nil, List.sum_cons, List.sum_nil, nat, List.getD_cons_zero,
    List.getD_cons_succ, o1, o2, o3, o4, d1, d2, d3, hz, mul_zero, zero_mul, add_zero, zero_add]
  have b1 : combN 4 [2, 0, 2] = 6 := by decide
  have b2 : combN 4 [0, 0, 4] = 1 := by decide
  rw [b1, b2]
  push_cast
  ring

/-- parameters with one jump, of size 1 in the middle of the interval -/
noncomputable def par1 : Par := ⟨1, 0, 1, 1, 1, 1 / 2, 2 * Real.log 2, [1], [Real.log 2]⟩

theorem log2 : 0 < Real.log 2 ∧ Real.log 2 < 1 :=
  ⟨Real.log_pos (by norm_num), (Real.log_lt_sub_one_of_pos (by norm_num) (by norm_num)).trans_eq (by norm_num)⟩

theorem par1_ok : par1.OK := by
  refine ⟨by simp [par1], by simp [par1, log2.1.le], by simp [par1]; norm_num, rfl, ?_⟩
  intro s hs
  simp [par1] at hs
  subst hs
  have := log2.1
  exact ⟨this.le, by simp only [par1]; linarith⟩

theorem par1_simple : par1.Simple := by
  refine ⟨by simp [par1], fun s hs => ?_⟩
  simp [par1] at hs
  subst hs
  exact log2.1

theorem exp_log2 (n : ℤ) : Real.exp (n * Real.log 2) = 2 ^ n := by
  rw [mul_comm, Real.exp_mul, Real.exp_log (by norm_num), Real.rpow_intCast]

theorem par1_z (l o : ℤ) : zval par1.cir par1.h ⟨[l], [o], [], []⟩ = 2 ^ l * Real.log 2 ^ o := by
  rw [zval_one]
  change ∑ i : Fin 1, _ = _
  have h : Real.log 2 ≤ 2 * Real.log 2 := by have := log2.1; linarith
  simp [Par.cir, par1, ItoCond.Par.upTo, h, exp_log2]

theorem par1_t (n : ℤ) : Real.exp (n * par1.cir.k * par1.h) = 4 ^ n := by
  have : (n : ℝ) * par1.cir.k * par1.h = ((2 * n : ℤ) : ℝ) * Real.log 2 := by
    simp only [Par.cir, par1]; push_cast; ring
  rw [this, exp_log2, zpow_mul]
  norm_num

theorem par1_202 : (diff202.map fun e => e.2 • jval par1.cir par1.h e.1).sum = 4 - 8 * Real.log 2 := by
  simp only [diff202, List.map_cons, List.map_nil, List.sum_cons, List.sum_nil, jval, par1_z, par1_t,
    Rat.smul_def]
  simp [Par.cir, par1]
  norm_num
  ring

theorem par1_004 : (diff004.map fun e => e.2 • jval par1.cir par1.h e.1).sum =
    6 * (Real.log 2 / 4 - 1 / 2) := by
  simp only [diff004, List.map_cons, List.map_nil, List.sum_cons, List.sum_nil, jval, par1_z, par1_t,
    Rat.smul_def]
  simp [Par.cir, par1]
  norm_num
  ring

theorem par1_err : 6 * wgt par1 2 0 2 * (diff202.map fun e => e.2 • jval par1.cir par1.h e.1).sum +
    wgt par1 0 0 4 * (diff004.map fun e => e.2 • jval par1.cir par1.h e.1).sum ≠ 0 := by
  have hs : Real.sqrt (1 - (1 / 2) ^ 2) ^ 2 = 3 / 4 := by
    rw [Real.sq_sqrt (by norm_num)]; norm_num
  have hs4 : Real.sqrt (1 - (1 / 2) ^ 2) ^ 4 = (3 / 4) ^ 2 := by
    rw [← hs]; ring
  have hx : Real.exp (-(1 * (2 * Real.log 2))) = 1 / 4 := by
    rw [show -(1 * (2 * Real.log 2)) = ((-2 : ℤ) : ℝ) * Real.log 2 by push_cast; ring, exp_log2]
    norm_num
  rw [par1_202, par1_004]
  simp only [wgt, par1, hs, hs4, hx]
  have := log2.2
  norm_num
  intro h
  nlinarith

end Ajd.Svvj
