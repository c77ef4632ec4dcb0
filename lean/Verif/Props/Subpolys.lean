import Verif.Model.Subpolys
import Verif.Spec.Subpolys
import Verif.Lemmas.SvvjClass
import Verif.Props.Svvj
import Verif.Props.Writer

/-! C55: the files written by `write_to_subpolys`. -/

namespace Ajd.Subpolys
open Svvj ItoCond Writer Poly

/-! ### simplify -/

/-- the key after `simplify(poly, tp=0)` -/
def neg0 (K : JKey) : JKey := ⟨(-ix K.b 0) :: K.b.drop 1, K.z, K.c⟩

theorem neg0_inj (a b : JKey) (ha : a.b.length = 6) (hb : b.b.length = 6) (h : neg0 a = neg0 b) : a = b := by
  obtain ⟨ab, az, ac⟩ := a
  obtain ⟨bb, bz, bc⟩ := b
  dsimp only at ha hb
  simp only [neg0, JKey.mk.injEq, List.cons.injEq] at h
  obtain ⟨⟨h0, h1⟩, h2, h3⟩ := h
  cases ab with
  | nil => simp at ha
  | cons x xs =>
    cases bb with
    | nil => simp at hb
    | cons y ys =>
      have hxy : x = y := by simpa [ix] using h0
      have hs : xs = ys := by simpa using h1
      rw [hxy, hs, h2, h3]

theorem dget_none {K V : Type} [DecidableEq K] (l : List (K × V)) (k : K) (h : k ∉ l.map Prod.fst) :
    dget l k = none := by
  induction l with
  | nil => rfl
  | cons a t ih =>
    obtain ⟨a, b⟩ := a
    simp only [List.map_cons, List.mem_cons, not_or] at h
    rw [dget, if_neg (Ne.symm h.1)]
    exact ih h.2

theorem addTerms_fresh (kf : List String) (ts acc : List (JKey × ℚ)) (h : ((acc ++ ts).map Prod.fst).Nodup) :
    addTerms ⟨kf, acc⟩ ts = ⟨kf, acc ++ ts⟩ := by
  induction ts generalizing acc with
  | nil => simp [addTerms]
  | cons a t ih =>
    have ha : a.1 ∉ acc.map Prod.fst := by
      intro hm
      rw [List.map_append, List.nodup_append] at h
      exact h.2.2 _ hm _ (by simp) rfl
    unfold addTerms
    rw [List.foldl_cons]
    have : Poly.addKeyval ⟨kf, acc⟩ a.1 a.2 = ⟨kf, acc ++ [a]⟩ := by
      unfold Poly.addKeyval
      dsimp only
      rw [dget_none _ _ ha]
      dsimp only
      rw [dset_fresh _ _ _ ha]
    rw [this]
    have := ih (acc ++ [a]) (by simpa using h)
    unfold addTerms at this
    rw [this]
    simp

/-- `simplify(poly, tp=0)` changes the first exponents only -/
theorem simplify_zero (P : JPoly) (hw : P.WF) (hP : P.Keys fun K => K.b.length = 6 ∧ ZOK K.z) :
    simplify P 0 = .ok ⟨"e^{-kt}" :: P.keyfor.drop 1, P.items.map fun e => (neg0 e.1, e.2)⟩ := by
  rw [simplify, if_pos rfl]
  congr 1
  unfold ofTerms
  rw [addTerms_fresh]
  · rfl
  · rw [List.nil_append, List.map_map]
    have : (Prod.fst ∘ fun e : JKey × ℚ => ((⟨(-ix e.1.b 0) :: e.1.b.drop 1, e.1.z, e.1.c⟩ : JKey), e.2)) =
        neg0 ∘ Prod.fst := rfl
    rw [this, ← List.map_map]
    refine List.Nodup.map_on ?_ hw
    intro a ha b hb hab
    obtain ⟨x, hx, rfl⟩ := List.mem_map.1 ha
    obtain ⟨y, hy, rfl⟩ := List.mem_map.1 hb
    exact neg0_inj _ _ (hP _ hx).1 (hP _ hy).1 hab

/-! ### the files -/

theorem writeFrom_eq (nth : ℤ) (n : ℕ) (ps : List (Poly CKey)) :
    (writeFrom nth n ps).length = ps.length ∧
      ∀ d : ℕ, (writeFrom nth n ps)[d]? = ps[d]?.map fun p => writeTxt (toV p) (fname nth (n + d)) := by
  induction ps generalizing n with
  | nil => simp [writeFrom]
  | cons p ps ih =>
    refine ⟨by simp [writeFrom, (ih (n + 1)).1], fun d => ?_⟩
    cases d with
    | zero => simp [writeFrom]
    | succ d =>
      rw [writeFrom, List.getElem?_cons_succ, (ih (n + 1)).2 d, List.getElem?_cons_succ]
      rw [show n + 1 + d = n + (d + 1) by omega]

theorem toKey_classKey (K : JKey) : toKey (classKey (neg0 K)) = fileKey K := by
  unfold classKey fileKey
  have h : (neg0 K).z = K.z := rfl
  rw [h]
  by_cases hl : K.z.l = []
  · rw [if_pos (by simp [hl]), if_pos hl]
    rfl
  · rw [if_neg (by simpa using hl), if_neg hl]
    simp [toKey, nested, neg0, flat]

/-- the Poly with the changed exponents -/
theorem noGap_neg (P : JPoly) (kf : List String) (m : ℕ) :
    Depths ⟨kf, P.items.map fun e => (neg0 e.1, e.2)⟩ m ↔ NoGap P m := by
  unfold Depths NoGap
  refine forall_congr' fun d => ?_
  refine iff_congr ?_ Iff.rfl
  constructor
  · rintro ⟨e, he, rfl⟩
    obtain ⟨x, hx, rfl⟩ := List.mem_map.1 he
    exact ⟨x, hx, rfl⟩
  · rintro ⟨e, he, rfl⟩
    exact ⟨_, List.mem_map.2 ⟨e, he, rfl⟩, rfl⟩

theorem neg_WF (P : JPoly) (kf : List String) (hw : P.WF) (hP : P.Keys fun K => K.b.length = 6 ∧ ZOK K.z) :
    Poly.WF (⟨kf, P.items.map fun e => (neg0 e.1, e.2)⟩ : JPoly) := by
  unfold Poly.WF
  dsimp only
  rw [List.map_map]
  have : (Prod.fst ∘ fun e : JKey × ℚ => (neg0 e.1, e.2)) = neg0 ∘ Prod.fst := rfl
  rw [this, ← List.map_map]
  refine List.Nodup.map_on ?_ hw
  intro a ha b hb hab
  obtain ⟨x, hx, rfl⟩ := List.mem_map.1 ha
  obtain ⟨y, hy, rfl⟩ := List.mem_map.1 hb
  exact neg0_inj _ _ (hP _ hx).1 (hP _ hy).1 hab

theorem neg_keys (P : JPoly) (kf : List String) (hP : P.Keys fun K => K.b.length = 6 ∧ ZOK K.z) :
    Poly.Keys (fun K : JKey => K.b.length = 6 ∧ ZOK K.z) (⟨kf, P.items.map fun e => (neg0 e.1, e.2)⟩ : JPoly) := by
  intro e he
  obtain ⟨x, hx, rfl⟩ := List.mem_map.1 he
  refine ⟨?_, (hP x hx).2⟩
  have := (hP x hx).1
  simp only [neg0, List.length_cons, List.length_drop]
  omega

theorem filter_neg (l : List (JKey × ℚ)) (d : ℕ) :
    (l.map fun e => (neg0 e.1, e.2)).filter (fun e => depth e = d) =
      (l.filter fun e => lev e = d).map fun e => (neg0 e.1, e.2) := by
  rw [List.filter_map]
  rfl

theorem fname_ext (nth : ℤ) (n : ℕ) : withExt ".txt".toList (fname nth n) = fname nth n := by
  unfold withExt
  rw [if_pos]
  rw [List.isSuffixOf_iff_suffix]
  exact ⟨"svvj-cond-cmoment-".toList ++ dec nth ++ "-formula-".toList ++ dec n, rfl⟩

/-- C55, part. Full statement: `write_to_subpolys(poly, nth)` writes every Poly, one file for each depth of summation.
It does when the depths that occur are `0, ..., m - 1`: it writes `m` files, in this order; file `d` has the number of
the moment and `d` in its name, and is the txt file of the entries of depth `d`, in their order and with their values,
under the header without the four jump names if `d = 0`; the first exponent counts `e^{-kt}`. Missing: the Polys with
a gap in the depths, for which it raises (`C55_error`). -/
theorem C55_files_partial (P : JPoly) (m : ℕ) (hm : 0 < m) (hk : P.keyfor = kfC) (hw : P.WF) (hP : P.Keys KC)
    (hd : NoGap P m) (nth : ℤ) :
    writeSubpolys P nth = .ok ((List.range m).map fun d : ℕ =>
      ("svvj-cond-cmoment-".toList ++ dec nth ++ "-formula-".toList ++ dec d ++ ".txt".toList,
        (writeTxt (filePoly P d) []).2)) := by
  have hP' : P.Keys fun K => K.b.length = 6 ∧ ZOK K.z := fun e he => ⟨(hP e he).1, (hP e he).2.2.2.2.2.1⟩
  obtain ⟨subs, e, hl, hs⟩ := classify_ok _ m hm ((noGap_neg P ("e^{-kt}" :: P.keyfor.drop 1) m).2 hd)
    (neg_WF P _ hw hP') (neg_keys P _ hP')
  unfold writeSubpolys
  rw [simplify_zero P hw hP', ok_bind, e, ok_bind]
  refine congrArg Except.ok ?_
  apply List.ext_getElem?
  intro d
  rw [(writeFrom_eq nth 0 subs).2 d, Nat.zero_add, List.getElem?_map]
  by_cases hd' : d < m
  · rw [hs d hd', List.getElem?_range hd', Option.map_some, Option.map_some]
    congr 1
    have hpoly : toV ⟨if d = 0 then ("e^{-kt}" :: P.keyfor.drop 1).take 6 ++ ("e^{-kt}" :: P.keyfor.drop 1).drop 10
        else "e^{-kt}" :: P.keyfor.drop 1,
        ((P.items.map fun e => (neg0 e.1, e.2)).filter fun e => depth e = d).map fun e => (classKey e.1, e.2)⟩ =
        filePoly P d := by
      unfold toV filePoly
      dsimp only
      rw [filter_neg, List.map_map, List.map_map]
      congr 1
      · rw [hk, fileNames]
        split_ifs <;> rfl
      · refine List.map_congr_left fun e _ => ?_
        simp only [Function.comp_apply]
        rw [toKey_classKey]
    dsimp only at hpoly ⊢
    rw [hpoly]
    unfold writeTxt
    rw [fname_ext]
    rfl
  · rw [List.getElem?_eq_none (by omega), List.getElem?_eq_none (by simpa using hd')]
    rfl

/-- C55. The files have different names, so that none replaces another. -/
theorem C55_names (P : JPoly) (nth : ℤ) (files : List (Text × Text)) (h : writeSubpolys P nth = .ok files) :
    (files.map Prod.fst).Nodup := by
  unfold writeSubpolys at h
  cases hs : simplify P 0 with
  | error e => rw [hs] at h; cases h
  | ok P' =>
    rw [hs, ok_bind] at h
    cases hc : classify P' with
    | error e => rw [hc] at h; cases h
    | ok subs =>
      rw [hc, ok_bind] at h
      obtain rfl : writeFrom nth 0 subs = files := Except.ok.inj h
      rw [List.nodup_iff_injective_get]
      intro a b hab
      have ha : (a : ℕ) < subs.length := by simpa [(writeFrom_eq nth 0 subs).1] using a.2
      have hb : (b : ℕ) < subs.length := by simpa [(writeFrom_eq nth 0 subs).1] using b.2
      have key : ∀ c : Fin ((writeFrom nth 0 subs).map Prod.fst).length, (c : ℕ) < subs.length →
          ((writeFrom nth 0 subs).map Prod.fst).get c = fname nth c := by
        intro c hc
        have := (writeFrom_eq nth 0 subs).2 c
        rw [List.getElem?_eq_getElem hc, Option.map_some, Nat.zero_add] at this
        have h2 : (writeFrom nth 0 subs)[(c : ℕ)]?.map Prod.fst = some (fname nth c) := by
          rw [this, Option.map_some, writeTxt, fname_ext]
        rw [← List.getElem?_map] at h2
        rw [List.get_eq_getElem]
        exact Option.some.inj ((List.getElem?_eq_getElem c.2).symm.trans h2)
      rw [key a ha, key b hb] at hab
      unfold fname at hab
      have h1 := List.append_cancel_right hab
      have h2 := dec_inj _ _ (List.append_cancel_left h1)
      exact Fin.ext (by exact_mod_cast h2)

/-! ### nothing is lost -/

theorem flat_inj {a b : List ℤ} (h : flat a = flat b) : a = b :=
  List.map_injective_iff.2 (fun _ _ h => Val.int.inj h) h

theorem fileKey_inj (a b : JKey) (ha : KC a) (hb : KC b) (hl : a.z.l.length = b.z.l.length)
    (h : fileKey a = fileKey b) : a = b := by
  have hla : ((-ix a.b 0) :: a.b.drop 1).length = 6 := by have := ha.1; simp; omega
  have hlb : ((-ix b.b 0) :: b.b.drop 1).length = 6 := by have := hb.1; simp; omega
  have hza := ha.2.2.2.2.2.1
  have hzb := hb.2.2.2.2.2.1
  refine neg0_inj a b ha.1 hb.1 ?_
  unfold fileKey at h
  by_cases h0 : a.z.l = []
  · have h0' : b.z.l = [] := by rw [h0] at hl; exact List.length_eq_zero_iff.1 hl.symm
    rw [if_pos h0, if_pos h0'] at h
    have h1 := flat_inj h
    obtain ⟨h2, h3⟩ := List.append_inj h1 (by rw [hla, hlb])
    have hnil : ∀ z : Tup, ZOK z → z.l = [] → z = ⟨[], [], [], []⟩ := by
      rintro ⟨l, o, p, q⟩ ⟨h1, h2, h3, _⟩ rfl
      simp only [List.length_nil] at h1 h2 h3
      rw [List.length_eq_zero_iff.1 h1, List.length_eq_zero_iff.1 h2, List.length_eq_zero_iff.1 h3]
    unfold neg0
    rw [h2, h3, hnil _ hza h0, hnil _ hzb h0']
  · have h0' : b.z.l ≠ [] := by
      intro hb
      rw [hb] at hl
      exact h0 (List.length_eq_zero_iff.1 hl)
    rw [if_neg h0, if_neg h0'] at h
    unfold nested at h
    obtain ⟨h1, h3⟩ := List.append_inj h (by simp [flat]; have := ha.1; have := hb.1; omega)
    obtain ⟨h1, h2⟩ := List.append_inj h1 (by simp [flat]; have := ha.1; have := hb.1; omega)
    simp only [List.map_cons, List.map_nil, List.cons.injEq, Val.tup.injEq, and_true] at h2
    obtain ⟨z1, z2, z3, z4⟩ := h2
    unfold neg0
    rw [flat_inj h1, flat_inj h3, JKey.mk.injEq]
    refine ⟨rfl, ?_, rfl⟩
    have ext : ∀ x y : Tup, x.l = y.l → x.o = y.o → x.p = y.p → x.q = y.q → x = y := by
      rintro ⟨l, o, p, q⟩ ⟨l', o', p', q'⟩ rfl rfl rfl rfl
      rfl
    exact ext _ _ (flat_inj z1) (flat_inj z2) (flat_inj z3) (flat_inj z4)

theorem quiet (d : ℕ) : QuietNames (fileNames d) := by
  unfold fileNames QuietNames
  split_ifs <;> decide +kernel

theorem map_inj_on {A B : Type} (f : A → B) (l l' : List A)
    (hf : ∀ a ∈ l, ∀ b ∈ l', f a = f b → a = b) (h : l.map f = l'.map f) : l = l' := by
  induction l generalizing l' with
  | nil => cases l' with
    | nil => rfl
    | cons b t => simp at h
  | cons a s ih =>
    cases l' with
    | nil => simp at h
    | cons b t =>
      simp only [List.map_cons, List.cons.injEq] at h
      rw [hf a (by simp) b (by simp) h.1, ih t (fun x hx y hy => hf x (by simp [hx]) y (by simp [hy])) h.2]

/-- C55. The files determine the order of the moment and the Poly: two Polys for which the same files are written have
the same entries. -/
theorem C55_determined (P Q : JPoly) (m m' : ℕ) (hm : 0 < m) (hm' : 0 < m') (hk : P.keyfor = kfC) (hk' : Q.keyfor = kfC)
    (hw : P.WF) (hw' : Q.WF) (hP : P.Keys KC) (hQ : Q.Keys KC) (hd : NoGap P m) (hd' : NoGap Q m') (nth nth' : ℤ)
    (h : writeSubpolys P nth = writeSubpolys Q nth') : nth = nth' ∧ P.items.Perm Q.items := by
  rw [C55_files_partial P m hm hk hw hP hd, C55_files_partial Q m' hm' hk' hw' hQ hd'] at h
  have h1 := Except.ok.inj h
  obtain rfl : m = m' := by simpa using congrArg List.length h1
  have hf : ∀ d < m, ("svvj-cond-cmoment-".toList ++ dec nth ++ "-formula-".toList ++ dec d ++ ".txt".toList,
      (writeTxt (filePoly P d) []).2) = ("svvj-cond-cmoment-".toList ++ dec nth' ++ "-formula-".toList ++ dec d ++
        ".txt".toList, (writeTxt (filePoly Q d) []).2) := fun d hd => List.map_inj_left.1 h1 d (List.mem_range.2 hd)
  refine ⟨?_, ?_⟩
  · have h2 := (Prod.mk.inj (hf 0 hm)).1
    have h3 := List.append_cancel_right (List.append_cancel_right (List.append_cancel_right h2))
    exact dec_inj _ _ (List.append_cancel_left h3)
  · have hfil : ∀ d < m, (P.items.filter fun e => lev e = d) = Q.items.filter fun e => lev e = d := by
      intro d hd
      have h2 := (Prod.mk.inj (hf d hd)).2
      have h3 : filePoly P d = filePoly Q d := C44_txt_injective _ _ (quiet d) (quiet d) [] (by
        refine Prod.ext rfl h2)
      have h4 := congrArg Poly.items h3
      refine map_inj_on _ _ _ ?_ h4
      intro a ha b hb hab
      obtain ⟨a1, a2⟩ := List.mem_filter.1 ha
      obtain ⟨b1, b2⟩ := List.mem_filter.1 hb
      obtain ⟨e1, e2⟩ := Prod.mk.inj hab
      refine Prod.ext (fileKey_inj _ _ (hP a a1) (hQ b b1) ?_ e1) e2
      have a2 := of_decide_eq_true a2
      have b2 := of_decide_eq_true b2
      unfold lev at a2 b2
      rw [a2, b2]
    rw [List.perm_iff_count]
    intro e
    by_cases he : lev e < m
    · have := congrArg (List.count e) (hfil _ he)
      rwa [List.count_filter (by simp), List.count_filter (by simp)] at this
    · rw [List.count_eq_zero_of_not_mem, List.count_eq_zero_of_not_mem]
      · exact fun hq => he ((hd' _).1 ⟨e, hq, rfl⟩)
      · exact fun hq => he ((hd _).1 ⟨e, hq, rfl⟩)

/-! ### the values -/

theorem sum_levels (g : JKey × ℚ → ℝ) (m : ℕ) (l : List (JKey × ℚ)) (h : ∀ e ∈ l, lev e < m) :
    ((List.range m).map fun d : ℕ => ((l.filter fun e => lev e = d).map g).sum).sum = (l.map g).sum := by
  induction l with
  | nil => simp
  | cons a t ih =>
    rw [List.map_cons, List.sum_cons, ← ih fun e he => h e (List.mem_cons_of_mem _ he)]
    have ha : g a = ((List.range m).map fun d : ℕ => if lev a = d then g a else 0).sum := by
      have hlt := h a (by simp)
      rw [← List.sum_toFinset _ List.nodup_range, List.toFinset_range, Finset.sum_ite_eq,
        if_pos (Finset.mem_range.2 hlt)]
    rw [ha, ← List.sum_map_add]
    refine congrArg _ (List.map_congr_left fun d _ => ?_)
    by_cases hd : lev a = d <;> simp [hd]

theorem keyVal_fileKey (p : Svvj.Par) (K : JKey) (h : KC K) : keyVal p K.z.l.length (fileKey K) = vC p K := by
  obtain ⟨b, ⟨l, o, q, r⟩, c⟩ := K
  obtain ⟨hb, -, -, -, -, hz, hc, -⟩ := h
  dsimp only at hb hc hz ⊢
  have h6 : ∃ b0 b1 b2 b3 b4 b5, b = [b0, b1, b2, b3, b4, b5] := by
    match b, hb with
    | [b0, b1, b2, b3, b4, b5], _ => exact ⟨b0, b1, b2, b3, b4, b5, rfl⟩
  have h3 : ∃ c0 c1 c2, c = [c0, c1, c2] := by
    match c, hc with
    | [c0, c1, c2], _ => exact ⟨c0, c1, c2, rfl⟩
  obtain ⟨b0, b1, b2, b3, b4, b5, rfl⟩ := h6
  obtain ⟨c0, c1, c2, rfl⟩ := h3
  have he : (Real.exp (-(p.k * p.h)) ^ b0)⁻¹ = Real.exp (b0 * p.k * p.h) := by
    rw [← Real.rpow_intCast, ← Real.exp_mul, ← Real.exp_neg]
    congr 1
    ring
  by_cases hl : l = []
  · subst hl
    have ho : o = [] := List.length_eq_zero_iff.1 hz.1
    have hq : q = [] := List.length_eq_zero_iff.1 hz.2.1
    have hr : r = [] := List.length_eq_zero_iff.1 hz.2.2.1
    subst ho hq hr
    simp [keyVal, fileKey, vC, flat, int, ix, he, zval, Utils.fZSpec]
  · have hll : l.length ≠ 0 := by simpa using hl
    have hi : ∀ x : List ℤ, (flat x).map int = x := fun x => by
      rw [flat, List.map_map]
      exact List.map_id x
    simp [keyVal, fileKey, vC, nested, int, ints, ix, he, hl, flat]
    have hi : ∀ x : List ℤ, x.map (int ∘ Val.int) = x := fun x => List.map_id x
    simp [hi]

/-- C55. The files keep the value: the sum of the values of the files, in which each number is the exponent of the name
in the header above it, is the value of the Poly. -/
theorem C55_value (P : JPoly) (m : ℕ) (hP : P.Keys KC) (hd : NoGap P m) (p : Svvj.Par) :
    ((List.range m).map fun d : ℕ => ev (keyVal p d) (filePoly P d)).sum = ev (vC p) P := by
  have h1 : ∀ d : ℕ, ev (keyVal p d) (filePoly P d) = ((P.items.filter fun e => lev e = d).map fun e =>
      e.2 • vC p e.1).sum := by
    intro d
    unfold ev filePoly
    dsimp only
    rw [List.map_map]
    refine congrArg _ (List.map_congr_left fun e he => ?_)
    obtain ⟨h2, h3⟩ := List.mem_filter.1 he
    have h3 : e.1.z.l.length = d := of_decide_eq_true h3
    simp only [Function.comp_apply]
    rw [← h3, keyVal_fileKey p _ (hP e h2)]
  simp only [h1]
  exact sum_levels _ m _ fun e he => (hd _).1 ⟨e, he, rfl⟩

/-! ### exceptions -/

/-- C55. Exactly when the depths have a gap, an IndexError is raised; then no file has been written. -/
theorem C55_error (P : JPoly) (hw : P.WF) (hP : P.Keys KC) (nth : ℤ) :
    writeSubpolys P nth = .error .indexError ↔ ¬ ∃ m, 0 < m ∧ NoGap P m := by
  have hP' : P.Keys fun K => K.b.length = 6 ∧ ZOK K.z := fun e he => ⟨(hP e he).1, (hP e he).2.2.2.2.2.1⟩
  have h1 := C39_classify_error _ (neg_WF P ("e^{-kt}" :: P.keyfor.drop 1) hw hP')
    (neg_keys P ("e^{-kt}" :: P.keyfor.drop 1) hP')
  have h2 : (∃ m, 0 < m ∧ NoGap P m) ↔ ∃ m, 0 < m ∧ Depths ⟨"e^{-kt}" :: P.keyfor.drop 1,
      P.items.map fun e => (neg0 e.1, e.2)⟩ m :=
    exists_congr fun m => and_congr Iff.rfl (noGap_neg P _ m).symm
  rw [h2]
  refine Iff.trans ?_ h1
  unfold writeSubpolys
  rw [simplify_zero P hw hP', ok_bind]
  cases classify ⟨"e^{-kt}" :: P.keyfor.drop 1, P.items.map fun e => (neg0 e.1, e.2)⟩ with
  | error e => constructor <;> intro h <;> injection h with h <;> rw [h] <;> rfl
  | ok r => constructor <;> intro h <;> cases h

/-! ### the central moments -/

/-- C55, part. Full statement: `write_to_subpolys(cmoment_y(l), l)` writes the formula of the conditional central moment
of order `l`. It does up to order 3, and for all orders without jumps, if the depths have no gap: the sum of the values
of the files is the moment. Missing: the orders from 4 on with jumps, where the moment itself is wrong
(`C38_cm_wrong`); that the depths have no gap is shown for the orders 1 to 3 only. -/
theorem C55_moment_partial (l : ℕ) (hl : 1 ≤ l) : ∃ r, cmomentY l = .ok r ∧ ∀ m, 0 < m → NoGap r m →
    (∃ files, writeSubpolys r l = .ok files ∧ ∀ d < m, (files[d]?.map Prod.snd) =
      some (writeTxt (filePoly r d) []).2) ∧
    ∀ (p : Svvj.Par) (E : Fsv1.Rv →ₗ[ℝ] ℝ), p.OK → CondLaw p E → p.jumpsize = [] ∨ l ≤ 3 →
      ((List.range m).map fun d : ℕ => ev (keyVal p d) (filePoly r d)).sum =
        E ((ret p - MvPolynomial.C (E (ret p))) ^ l) := by
  obtain ⟨ms, e, h, hm⟩ := C38_cmoments_partial l
  have hlt : l < ms.length := by rw [h]; omega
  obtain ⟨hk, hw, hP, -, v⟩ := hm l ms[l] (List.getElem?_eq_getElem hlt)
  refine ⟨ms[l], ?_, fun m hm0 hd => ⟨⟨_, C55_files_partial _ m hm0 hk hw hP hd l, fun d hd' => ?_⟩, fun p E hp hE hr => ?_⟩⟩
  · have hlast : ms.getLast? = some ms[l] := by
      rw [List.getLast?_eq_getElem?, h, show max l 1 + 1 - 1 = l by omega, List.getElem?_eq_getElem hlt]
    unfold cmomentY
    rw [e, ok_bind]
    unfold pyLast
    rw [hlast]
  · rw [List.getElem?_map, List.getElem?_range hd']
    rfl
  · rw [C55_value _ m hP hd, v p E hp hE hr]

theorem noGap_check (P : JPoly) (m : ℕ) (h : (P.items.all fun e => decide (lev e < m)) = true ∧
    (List.range m).all (fun d : ℕ => P.items.any fun e => decide (lev e = d)) = true) : NoGap P m := by
  intro d
  constructor
  · rintro ⟨e, he, rfl⟩
    exact of_decide_eq_true (List.all_eq_true.1 h.1 e he)
  · intro hd
    obtain ⟨e, he, h1⟩ := List.any_eq_true.1 (List.all_eq_true.1 h.2 d (List.mem_range.2 hd))
    exact ⟨e, he, of_decide_eq_true h1⟩

/-- the depths of the moments of orders 1, 2, 3 have no gap -/
theorem C55_noGap (l : ℕ) (hl : l = 1 ∨ l = 2 ∨ l = 3) : ∃ r, cmomentY l = .ok r ∧ NoGap r (if l = 1 then 1 else 2) := by
  have key : ∀ (l : ℤ) (m : ℕ), (match cmomentY l with
      | .ok r => (r.items.all fun e => decide (lev e < m)) && (List.range m).all fun d : ℕ =>
        r.items.any fun e => decide (lev e = d)
      | .error _ => false) = true → ∃ r, cmomentY l = .ok r ∧ NoGap r m := by
    intro l m h
    cases hc : cmomentY l with
    | error e => rw [hc] at h; cases h
    | ok r =>
      rw [hc] at h
      exact ⟨r, rfl, noGap_check r m (Bool.and_eq_true_iff.1 h)⟩
  rcases hl with rfl | rfl | rfl
  · exact key 1 1 (by decide +kernel)
  · exact key 2 2 (by decide +kernel)
  · exact key 3 2 (by decide +kernel)

/-- a Poly with entries of the depths 0 and 1 -/
def exP : JPoly := ⟨kfC, [(⟨[-3, 0, 1, 0, 0, 0], ⟨[1], [0], [], []⟩, [1, 0, 0]⟩, -1 / 2),
    (⟨[2, 0, 1, 0, 0, 0], ⟨[], [], [], []⟩, [1, 0, 0]⟩, 5)]⟩

theorem exP_ok : exP.keyfor = kfC ∧ exP.WF ∧ exP.Keys KC ∧ NoGap exP 2 :=
  ⟨rfl, by simp [WF, exP], by
    intro x hx
    simp only [exP, List.mem_cons, List.not_mem_nil, or_false] at hx
    rcases hx with rfl | rfl <;> simp [KC, ZOK, ix], noGap_check _ 2 (by decide +kernel)⟩

/-- the hypotheses are met, and these are the files -/
example :
    writeSubpolys exP 3 = .ok [("svvj-cond-cmoment-3-formula-0.txt".toList,
      ("('e^{-kt}', 't', 'k^{-}', 'v0-theta', 'theta', 'sigma', 'sigma/2k', 'rho-sigma/2k', 'sqrt(1-rho^2)')" ++
        ": value(in fraction)\n(-2, 0, 1, 0, 0, 0, 1, 0, 0): (5,1)\n").toList),
      ("svvj-cond-cmoment-3-formula-1.txt".toList,
      ("('e^{-kt}', 't', 'k^{-}', 'v0-theta', 'theta', 'sigma', 'l_{1:n}', 'o_{1:n}', 'p_{2:n}', 'q_{2:n}', " ++
        "'sigma/2k', 'rho-sigma/2k', 'sqrt(1-rho^2)'): value(in fraction)\n" ++
        "(3, 0, 1, 0, 0, 0, (1,), (0,), (), (), 1, 0, 0): (-1,2)\n").toList)] := by
  rw [C55_files_partial exP 2 (by decide) exP_ok.1 exP_ok.2.1 exP_ok.2.2.1 exP_ok.2.2.2]
  decide +kernel

/-- a Poly with a gap -/
example : ∃ P : JPoly, P.WF ∧ P.Keys KC ∧ ¬ ∃ m, 0 < m ∧ NoGap P m :=
  ⟨⟨kfC, [(⟨[0, 0, 1, 0, 0, 0], ⟨[1], [0], [], []⟩, [1, 0, 0]⟩, 1)]⟩, by simp [WF], by
    intro x hx
    simp at hx
    subst hx
    simp [KC, ZOK], by
    rintro ⟨m, hm, h⟩
    obtain ⟨e, he, h0⟩ := (h 0).2 hm
    simp only [List.mem_singleton] at he
    subst he
    simp [lev] at h0⟩

end Ajd.Subpolys
