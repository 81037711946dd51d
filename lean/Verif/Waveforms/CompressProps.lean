import Verif.Waveforms.SampleProps

/-! # Compressing waveforms (C124) -/

namespace Verif.Waveforms

open Verif.Round (roundFloat)

set_option linter.unusedSectionVars false
set_option linter.unusedSimpArgs false

variable {K : Type} [Field K] [LinearOrder K] [IsStrictOrderedRing K] [FloorRing K]

/-! ## Lemmas on the loop -/

theorem compressLoop_ok : ∀ (prev : Slope K) (D T : List K), D.length ≤ T.length →
    ∃ cd ct, compressLoop prev D T = .ok (cd, ct) ∧ cd.length = ct.length ∧
      (cd.zip ct).Sublist (D.zip T).dropLast
  | prev, [], T, _ => ⟨[], [], by simp [compressLoop], rfl, by simp⟩
  | prev, [d], T, _ => ⟨[], [], by simp [compressLoop], rfl, by simp⟩
  | prev, d0 :: d1 :: ds, [], h => by simp at h
  | prev, d0 :: d1 :: ds, [t], h => by simp at h
  | prev, d0 :: d1 :: ds, t0 :: t1 :: ts, h => by
    obtain ⟨cd, ct, e1, e2, e3⟩ := compressLoop_ok (slopeOf d0 t0 d1 t1) (d1 :: ds) (t1 :: ts) (by simpa using h)
    rw [compressLoop]
    simp only [e1, Res.bind]
    have hd : ((d0 :: d1 :: ds).zip (t0 :: t1 :: ts)).dropLast
        = (d0, t0) :: ((d1 :: ds).zip (t1 :: ts)).dropLast := by simp
    rw [hd]
    by_cases hk : keeps prev (slopeOf d0 t0 d1 t1) = true
    · exact ⟨d0 :: cd, t0 :: ct, by rw [if_pos hk], by simp [e2], by simpa using e3⟩
    · exact ⟨cd, ct, by rw [if_neg hk], e2, e3.trans (List.sublist_cons_self _ _)⟩

/-- Slopes are either none at all or larger than the threshold of the code. -/
def NoTinySlopes : List K → List K → Prop
  | d0 :: d1 :: ds, t0 :: t1 :: ts =>
    (d1 = d0 ∨ |d1 - d0| > 1 / 10 ^ 9 * (t1 - t0)) ∧ NoTinySlopes (d1 :: ds) (t1 :: ts)
  | _, _ => True

theorem loop_keeps_maximum (x : K) : ∀ (prev : Slope K) (D T cd ct : List K), T.Pairwise (· ≤ ·) →
    NoTinySlopes D T → (∀ d ∈ D, d ≤ x) → x ∈ D.dropLast →
    (∀ d, D.head? = some d → d < x ∨ prev = .jump ∨ ∃ p, prev = .val p ∧ p > 1 / 10 ^ 9) →
    compressLoop prev D T = .ok (cd, ct) → x ∈ cd
  | prev, [], T, cd, ct, _, _, _, hx, _, _ => by simp at hx
  | prev, [d], T, cd, ct, _, _, _, hx, _, _ => by simp at hx
  | prev, d0 :: d1 :: ds, [], cd, ct, _, _, _, _, _, h => by simp [compressLoop] at h
  | prev, d0 :: d1 :: ds, [t], cd, ct, _, _, _, _, _, h => by simp [compressLoop] at h
  | prev, d0 :: d1 :: ds, t0 :: t1 :: ts, cd, ct, hT, hn, hb, hx, hp, h => by
    rw [compressLoop] at h
    simp only at h
    cases hr : compressLoop (slopeOf d0 t0 d1 t1) (d1 :: ds) (t1 :: ts) with
    | throws => rw [hr] at h; simp [Res.bind] at h
    | nan => rw [hr] at h; simp [Res.bind] at h
    | ub => rw [hr] at h; simp [Res.bind] at h
    | ok c =>
      obtain ⟨cd', ct'⟩ := c
      rw [hr] at h
      simp only [Res.bind, Res.ok.injEq] at h
      have ht01 : t0 ≤ t1 := (List.pairwise_cons.mp hT).1 t1 (by simp)
      have hd1 : d1 ≤ x := hb d1 (by simp)
      by_cases h0 : d0 = x
      · -- the point itself is kept
        have hk : keeps prev (slopeOf d0 t0 d1 t1) = true := by
          rcases hp d0 rfl with hlt | hj | ⟨p, hpv, hpp⟩
          · exact absurd h0 hlt.ne
          · subst hj; rfl
          · subst hpv
            unfold slopeOf
            by_cases he : t1 = t0
            · rw [if_pos he]; rfl
            · rw [if_neg he]
              unfold keeps
              have hpos : (0 : K) < 1 / 10 ^ 9 := by norm_num
              simp only
              rw [if_pos (lt_of_lt_of_le hpp (le_abs_self p))]
              rw [decide_eq_true_eq]
              have hp0 : 0 < p := lt_trans hpos hpp
              have ht : 0 < t1 - t0 := sub_pos.mpr (lt_of_le_of_ne ht01 (Ne.symm he))
              have hs : (d1 - d0) / (t1 - t0) ≤ 0 := div_nonpos_of_nonpos_of_nonneg (by rw [h0]; linarith) ht.le
              have hq : ((d1 - d0) / (t1 - t0) - p) / p ≤ -1 := by
                rw [div_le_iff₀ hp0]; linarith
              rw [abs_of_nonpos (by linarith)]
              have : (1 : K) / 100 < 1 := by norm_num
              linarith
        rw [if_pos hk] at h
        simp only [Prod.mk.injEq] at h
        rw [← h.1, h0]; simp
      · have hlt : d0 < x := lt_of_le_of_ne (hb d0 (by simp)) h0
        have hx' : x ∈ (d1 :: ds).dropLast := by
          have : x ∈ d0 :: (d1 :: ds).dropLast := by simpa using hx
          rcases List.mem_cons.mp this with e | e
          · exact absurd e.symm h0
          · exact e
        have hin : x ∈ cd' := by
          refine loop_keeps_maximum x _ (d1 :: ds) (t1 :: ts) cd' ct' (List.pairwise_cons.mp hT).2 hn.2
            (fun d hd => hb d (List.mem_cons_of_mem _ hd)) hx' (fun d hd => ?_) hr
          simp only [List.head?_cons, Option.some.injEq] at hd
          subst hd
          by_cases e1 : d1 = x
          · right
            unfold slopeOf
            by_cases he : t1 = t0
            · left; rw [if_pos he]
            · right
              rw [if_neg he]
              have ht : 0 < t1 - t0 := sub_pos.mpr (lt_of_le_of_ne ht01 (Ne.symm he))
              refine ⟨_, rfl, ?_⟩
              rcases hn.1 with e | e
              · exact absurd (by rw [← e1, e] : d0 = x) h0
              · rw [abs_of_pos (by rw [e1]; linarith)] at e
                rw [gt_iff_lt, lt_div_iff₀ ht]; exact e
          · left; exact lt_of_le_of_ne hd1 e1
        by_cases hk : keeps prev (slopeOf d0 t0 d1 t1) = true
        · rw [if_pos hk] at h
          simp only [Prod.mk.injEq] at h
          rw [← h.1]; exact List.mem_cons_of_mem _ hin
        · rw [if_neg hk] at h
          simp only [Prod.mk.injEq] at h
          rw [← h.1]; exact hin

/-- The slope of the negated values. -/
def Slope.neg : Slope K → Slope K
  | .jump => .jump
  | .val s => .val (-s)

theorem slopeOf_neg (d0 t0 d1 t1 : K) : slopeOf (-d0) t0 (-d1) t1 = (slopeOf d0 t0 d1 t1).neg := by
  unfold slopeOf
  by_cases h : t1 = t0
  · rw [if_pos h, if_pos h]; rfl
  · rw [if_neg h, if_neg h]
    simp only [Slope.neg, Slope.val.injEq]; ring

theorem keeps_neg (p s : Slope K) : keeps p.neg s.neg = keeps p s := by
  cases p <;> cases s <;> simp only [Slope.neg, keeps]
  rename_i p s
  rw [abs_neg, abs_neg, show (-s - -p) / -p = (s - p) / p by rw [show -s - -p = -(s - p) by ring, neg_div_neg_eq]]

theorem compressLoop_neg : ∀ (prev : Slope K) (D T : List K),
    compressLoop prev.neg (D.map (- ·)) T =
      (compressLoop prev D T).bind fun c => .ok (c.1.map (- ·), c.2)
  | prev, [], T => by simp [compressLoop, Res.bind]
  | prev, [d], T => by simp [compressLoop, Res.bind]
  | prev, d0 :: d1 :: ds, [] => by simp [compressLoop, Res.bind]
  | prev, d0 :: d1 :: ds, [t] => by simp [compressLoop, Res.bind]
  | prev, d0 :: d1 :: ds, t0 :: t1 :: ts => by
    have ih := compressLoop_neg (slopeOf d0 t0 d1 t1) (d1 :: ds) (t1 :: ts)
    simp only [List.map_cons] at ih ⊢
    rw [compressLoop, compressLoop]
    simp only [slopeOf_neg, keeps_neg, ih]
    cases compressLoop (slopeOf d0 t0 d1 t1) (d1 :: ds) (t1 :: ts) <;> simp only [Res.bind]
    split_ifs <;> simp

theorem noTiny_neg : ∀ (D T : List K), NoTinySlopes D T → NoTinySlopes (D.map (- ·)) T
  | [], T, _ => by simp [NoTinySlopes]
  | [d], T, _ => by simp [NoTinySlopes]
  | d0 :: d1 :: ds, [], _ => by simp [NoTinySlopes]
  | d0 :: d1 :: ds, [t], _ => by simp [NoTinySlopes]
  | d0 :: d1 :: ds, t0 :: t1 :: ts, h => by
    have ih := noTiny_neg (d1 :: ds) (t1 :: ts) h.2
    simp only [List.map_cons] at ih ⊢
    refine ⟨?_, ih⟩
    rcases h.1 with e | e
    · left; rw [e]
    · right; rw [show -d1 - -d0 = -(d1 - d0) by ring, abs_neg]; exact e

/-! ## C124: what compression keeps and what it loses -/

/-- The values and times the loop goes over: those of the waveform, and the first value again one step after the
last time. -/
def closedUp (w : Waveform K) (ts : List K) (d0 e : K) : List K × List K := (w.data ++ [d0], ts ++ [e])

theorem compress_eq (w : Waveform K) (ts : List K) (d0 tl tp : K) (h2 : 2 ≤ w.data.length)
    (ht : w.time = some ts) (hd : w.data.head? = some d0)
    (hl : ts.getLast? = some tl) (hp : ts.dropLast.getLast? = some tp) :
    compress w = (compressLoop .jump (w.data ++ [d0]) (ts ++ [tl + (tl - tp)])).bind fun c =>
      .ok { data := c.1 ++ [d0], time := some (c.2 ++ [tl + (tl - tp)]), label := w.label } := by
  unfold compress
  rcases hw : w.data with _ | ⟨a, _ | ⟨b, l⟩⟩
  · rw [hw] at h2; simp at h2
  · rw [hw] at h2; simp at h2
  · rw [hw] at hd
    simp only [List.head?_cons, Option.some.injEq] at hd
    subst hd
    simp only [ht]
    have hrev : ∃ r, ts.reverse = tl :: tp :: r := by
      rcases hr : ts.reverse with _ | ⟨x, _ | ⟨y, r⟩⟩
      · have : ts = [] := by simpa using hr
        subst this; simp at hl
      · have : ts = [x] := by
          have := congrArg List.reverse hr; simpa using this
        subst this; simp at hp
      · have e : ts = r.reverse ++ [y] ++ [x] := by
          have := congrArg List.reverse hr; simpa using this
        subst e
        simp at hl
        rw [List.dropLast_concat] at hp
        simp at hp
        exact ⟨r, by rw [hl, hp]⟩
    obtain ⟨r, hr⟩ := hrev
    rw [hr]

/-- C124: the points of a compressed waveform are points of the waveform, in order, followed by its first value one
step after its last time. The first point is always kept, and so is the label. -/
theorem compressed_points (w : Waveform K) (ts : List K) (d0 t0 tl tp : K) (h2 : 2 ≤ w.data.length)
    (ht : w.time = some ts) (hs : ts.length = w.data.length) (hd : w.data.head? = some d0)
    (h0 : ts.head? = some t0) (hl : ts.getLast? = some tl) (hp : ts.dropLast.getLast? = some tp) :
    ∃ (c : Waveform K) (cd ct : List K), compress w = .ok c ∧ c.label = w.label ∧
      c.data = d0 :: cd ++ [d0] ∧ c.time = some (t0 :: ct ++ [tl + (tl - tp)]) ∧ cd.length = ct.length ∧
      ((d0 :: cd).zip (t0 :: ct)).Sublist (w.data.zip ts) := by
  obtain ⟨cd, ct, e1, e2, e3⟩ := compressLoop_ok (K := K) .jump (w.data ++ [d0]) (ts ++ [tl + (tl - tp)])
    (by simp [hs])
  rw [compress_eq w ts d0 tl tp h2 ht hd hl hp, e1]
  -- the first point is kept since the slope before it counts as a jump
  rcases hw : w.data with _ | ⟨a, _ | ⟨b, l⟩⟩
  · rw [hw] at h2; simp at h2
  · rw [hw] at h2; simp at h2
  rcases hts : ts with _ | ⟨u, _ | ⟨v, m⟩⟩
  · rw [hts, hw] at hs; simp at hs
  · rw [hts, hw] at hs; simp at hs
  rw [hw] at hd
  rw [hts] at h0
  simp only [List.head?_cons, Option.some.injEq] at hd h0
  subst hd h0
  have e1' := e1
  rw [hw, hts] at e1'
  simp only [List.cons_append] at e1'
  rw [compressLoop] at e1'
  simp only at e1'
  cases hr : compressLoop (slopeOf a u b v) (b :: (l ++ [a])) (v :: (m ++ [tl + (tl - tp)])) with
  | throws => rw [hr] at e1'; simp [Res.bind] at e1'
  | nan => rw [hr] at e1'; simp [Res.bind] at e1'
  | ub => rw [hr] at e1'; simp [Res.bind] at e1'
  | ok c =>
    obtain ⟨cd', ct'⟩ := c
    rw [hr] at e1'
    simp only [Res.bind, Res.ok.injEq] at e1'
    rw [if_pos (by rfl)] at e1'
    simp only [Prod.mk.injEq] at e1'
    obtain ⟨e4, e5⟩ := e1'
    subst e4 e5
    refine ⟨_, cd', ct', rfl, rfl, rfl, rfl, by simpa using e2, ?_⟩
    have hz : ((w.data ++ [a]).zip (ts ++ [tl + (tl - tp)])).dropLast = w.data.zip ts := by
      rw [List.zip_append hs.symm]; simp
    rw [hz, hw, hts] at e3
    exact e3

/-- C124: a waveform with times that do not go back, whose slopes are either zero or larger than `1e-9`, keeps its
largest and its smallest value when compressed. -/
theorem compressed_extremes_partial (w c : Waveform K) (ts : List K) (d0 tl tp x : K) (h2 : 2 ≤ w.data.length)
    (ht : w.time = some ts) (hs : ts.length = w.data.length) (hd : w.data.head? = some d0)
    (hl : ts.getLast? = some tl) (hp : ts.dropLast.getLast? = some tp) (hord : ts.Pairwise (· ≤ ·))
    (hn : NoTinySlopes (w.data ++ [d0]) (ts ++ [tl + (tl - tp)])) (hx : x ∈ w.data)
    (hext : (∀ d ∈ w.data, d ≤ x) ∨ (∀ d ∈ w.data, x ≤ d)) (h : compress w = .ok c) : x ∈ c.data := by
  rw [compress_eq w ts d0 tl tp h2 ht hd hl hp] at h
  obtain ⟨cd, ct, e1, e2, e3⟩ := compressLoop_ok (K := K) .jump (w.data ++ [d0]) (ts ++ [tl + (tl - tp)])
    (by simp [hs])
  rw [e1] at h
  simp only [Res.bind, Res.ok.injEq] at h
  subst h
  simp only
  apply List.mem_append_left
  have hd0 : d0 ∈ w.data := List.mem_of_mem_head? (by rw [hd]; rfl)
  have htp : tp ≤ tl := by
    have e : ts = ts.dropLast ++ [tl] := (List.dropLast_append_getLast? tl (by rw [hl]; rfl)).symm
    rw [e] at hord
    exact (List.pairwise_append.mp hord).2.2 tp (List.mem_of_getLast? hp) tl (by simp)
  have hord' : (ts ++ [tl + (tl - tp)]).Pairwise (· ≤ ·) := by
    rw [List.pairwise_append]
    refine ⟨hord, by simp, fun a ha b hb => ?_⟩
    simp only [List.mem_singleton] at hb
    subst hb
    have : a ≤ tl := by
      obtain ⟨i, hi, rfl⟩ := List.mem_iff_getElem.mp ha
      rw [List.getLast?_eq_getElem?] at hl
      obtain ⟨hj, rfl⟩ := List.getElem?_eq_some_iff.mp hl
      rcases Nat.lt_or_ge i (ts.length - 1) with hlt | hge
      · exact List.pairwise_iff_getElem.mp hord i (ts.length - 1) hi hj hlt
      · have : i = ts.length - 1 := by omega
        subst this; exact le_refl _
    linarith
  rcases hext with hmax | hmin
  · refine loop_keeps_maximum x .jump _ _ cd ct hord' hn ?_ ?_ (fun _ _ => Or.inr (Or.inl rfl)) e1
    · intro d hd'
      rcases List.mem_append.mp hd' with e | e
      · exact hmax d e
      · simp only [List.mem_singleton] at e; rw [e]; exact hmax d0 hd0
    · simpa using hx
  · have e1n := compressLoop_neg (K := K) .jump (w.data ++ [d0]) (ts ++ [tl + (tl - tp)])
    rw [e1] at e1n
    simp only [Res.bind, Slope.neg] at e1n
    have hin := loop_keeps_maximum (-x) .jump _ _ _ _ hord' (noTiny_neg _ _ hn) (by
        intro d hd'
        rw [List.mem_map] at hd'
        obtain ⟨y, hy, rfl⟩ := hd'
        rcases List.mem_append.mp hy with e | e
        · exact neg_le_neg (hmin y e)
        · simp only [List.mem_singleton] at e; rw [e]; exact neg_le_neg (hmin d0 hd0)) (by
        rw [List.map_append, List.map_singleton, List.dropLast_concat]
        exact List.mem_map_of_mem hx) (fun _ _ => Or.inr (Or.inl rfl)) e1n
    rw [List.mem_map] at hin
    obtain ⟨y, hy, e⟩ := hin
    have : y = x := by simpa using e
    rw [← this]; exact hy

/-- C124: with slopes below `1e-9` the largest value may be lost: a ripple of half a nanovolt around a level, at a
sample per second, is compressed to the level. -/
theorem tiny_extremes_lost :
    compress (K := ℚ) ⟨[0, 1 / 2000000000, 0, -1 / 2000000000], some [0, 1, 2, 3], none⟩
      = .ok ⟨[0, 0], some [0, 4], none⟩ := by decide +kernel

/-- A decaying exponential in `n` samples. -/
def decay (a r : K) : Nat → List K
  | 0 => []
  | n + 1 => a :: decay (a * r) r n

theorem decay_loop (d0 r dt : K) (hr0 : 99 / 100 ≤ r) (hr1 : r < 1) (hdt : 0 < dt) : ∀ (k : Nat) (a t : K),
    0 < a → a < d0 → a * r ^ k * (1 - r) / dt > 1 / 10 ^ 9 →
    compressLoop (.val (a * (1 - 1 / r) / dt)) (decay a r (k + 1) ++ [d0]) (Sampling.fill dt (k + 2) t)
      = .ok ([a * r ^ k], [t + (k : K) * dt])
  | 0, a, t, ha, had, hbig => by
    have hrpos : (0 : K) < r := lt_of_lt_of_le (by norm_num) hr0
    have hneg : a * (1 - 1 / r) / dt < 0 := by
      apply div_neg_of_neg_of_pos _ hdt
      have : 1 < 1 / r := by rw [lt_div_iff₀ hrpos]; linarith
      exact mul_neg_of_pos_of_neg ha (by linarith)
    have hmag : 1 / 10 ^ 9 < |a * (1 - 1 / r) / dt| := by
      rw [abs_of_neg hneg]
      refine lt_of_lt_of_le hbig ?_
      simp only [pow_zero, mul_one]
      rw [← neg_div]
      apply div_le_div_of_nonneg_right _ hdt.le
      have : 1 - r ≤ 1 / r - 1 := by
        rw [le_sub_iff_add_le, le_div_iff₀ hrpos]; nlinarith [mul_pos hrpos hrpos, sq_nonneg (r - 1)]
      nlinarith
    simp only [decay, List.cons_append, List.nil_append, Sampling.fill]
    rw [compressLoop]
    have hs : slopeOf a t d0 (t + dt) = .val ((d0 - a) / dt) := by
      unfold slopeOf; rw [if_neg (by linarith)]; simp
    simp only [hs, compressLoop, Res.bind]
    rw [if_pos]
    · simp
    · unfold keeps
      simp only
      rw [if_pos hmag, decide_eq_true_eq]
      have hs0 : 0 < (d0 - a) / dt := div_pos (by linarith) hdt
      generalize a * (1 - 1 / r) / dt = p at hneg
      generalize (d0 - a) / dt = s at hs0
      have : (s - p) / p ≤ -1 := by rw [div_le_iff_of_neg hneg]; linarith
      rw [abs_of_nonpos (by linarith)]
      have : (1 : K) / 100 < 1 := by norm_num
      linarith
  | k + 1, a, t, ha, had, hbig => by
    have hrpos : (0 : K) < r := lt_of_lt_of_le (by norm_num) hr0
    have hpk : r ^ (k + 1) ≤ 1 := pow_le_one₀ hrpos.le hr1.le
    have hneg : a * (1 - 1 / r) / dt < 0 := by
      apply div_neg_of_neg_of_pos _ hdt
      have : 1 < 1 / r := by rw [lt_div_iff₀ hrpos]; linarith
      exact mul_neg_of_pos_of_neg ha (by linarith)
    have hmag : 1 / 10 ^ 9 < |a * (1 - 1 / r) / dt| := by
      rw [abs_of_neg hneg]
      refine lt_of_lt_of_le hbig ?_
      rw [← neg_div]
      apply div_le_div_of_nonneg_right _ hdt.le
      have h1 : 1 - r ≤ 1 / r - 1 := by
        rw [le_sub_iff_add_le, le_div_iff₀ hrpos]; nlinarith [mul_pos hrpos hrpos, sq_nonneg (r - 1)]
      have h2 : a * r ^ (k + 1) ≤ a := by nlinarith
      have h3 : a * r ^ (k + 1) * (1 - r) ≤ a * (1 - r) := mul_le_mul_of_nonneg_right h2 (by linarith)
      nlinarith
    have ih := decay_loop d0 r dt hr0 hr1 hdt k (a * r) (t + dt) (mul_pos ha hrpos)
      (lt_trans (by nlinarith) had) (by rw [show a * r * r ^ k = a * r ^ (k + 1) by ring]; exact hbig)
    have hs : slopeOf a t (a * r) (t + dt) = .val (a * r * (1 - 1 / r) / dt) := by
      unfold slopeOf
      rw [if_neg (by linarith)]
      simp only [Slope.val.injEq]
      rw [show t + dt - t = dt by ring]
      congr 1
      field_simp
    have hdec : decay a r (k + 1 + 1) ++ [d0] = a :: (decay (a * r) r (k + 1) ++ [d0]) := rfl
    have hdec' : decay (a * r) r (k + 1) ++ [d0] = (a * r) :: (decay (a * r * r) r k ++ [d0]) := rfl
    have hfill : Sampling.fill dt (k + 1 + 2) t = t :: (t + dt) :: Sampling.fill dt (k + 1) (t + dt + dt) := rfl
    have hfill' : Sampling.fill dt (k + 2) (t + dt) = (t + dt) :: Sampling.fill dt (k + 1) (t + dt + dt) := rfl
    rw [hdec, hfill, hdec', compressLoop]
    rw [hdec', hfill'] at ih
    simp only [hs, ih, Res.bind]
    rw [if_neg]
    · simp only [Res.ok.injEq, Prod.mk.injEq, List.cons.injEq, and_true]
      refine ⟨by ring, ?_⟩
      push_cast; ring
    · unfold keeps
      simp only
      rw [if_pos hmag, decide_eq_true_eq, not_lt]
      have e : (a * r * (1 - 1 / r) / dt - a * (1 - 1 / r) / dt) / (a * (1 - 1 / r) / dt) = r - 1 := by
        have h1 : a * (1 - 1 / r) / dt ≠ 0 := hneg.ne
        rw [div_eq_iff h1]; ring
      rw [e, abs_of_neg (by linarith)]
      have : (99 : K) / 100 = 1 - 1 / 100 := by norm_num
      linarith

/-- C124: a curve that bends by no more than one percent per sample is compressed to a triangle, however much it
bends altogether: of an exponential decay sampled in any number of points only the first and the last are kept,
with the first value again at the end. -/
theorem slow_bend_lost (a r dt : K) (n : Nat) (hn : 2 ≤ n) (ha : 0 < a) (hr0 : 99 / 100 ≤ r) (hr1 : r < 1)
    (hdt : 0 < dt) (hbig : a * r ^ n * (1 - r) / dt > 1 / 10 ^ 9) (l : Option Label) :
    compress ⟨decay a r n, some (Sampling.fill dt n 0), l⟩
      = .ok ⟨[a, a * r ^ (n - 1), a], some [0, ((n - 1 : Nat) : K) * dt, (n : K) * dt], l⟩ := by
  obtain ⟨k, rfl⟩ : ∃ k, n = k + 2 := ⟨n - 2, by omega⟩
  have hrpos : (0 : K) < r := lt_of_lt_of_le (by norm_num) hr0
  have hfl : ∀ (m : Nat) (v : K), (Sampling.fill dt m v).length = m := fun m v => Sampling.fill_length dt m v
  have hget : ∀ (m : Nat) (v : K) (i : Nat), i < m → (Sampling.fill dt m v)[i]? = some (v + i * dt) :=
    fun m v i h => Sampling.fill_get dt m v i h
  have hl : (Sampling.fill dt (k + 2) 0).getLast? = some (((k + 1 : Nat) : K) * dt) := by
    rw [List.getLast?_eq_getElem?, hfl, hget _ _ _ (by omega)]; simp
  have hp : (Sampling.fill dt (k + 2) 0).dropLast.getLast? = some ((k : K) * dt) := by
    rw [List.getLast?_eq_getElem?, List.length_dropLast, hfl, List.getElem?_dropLast, hfl, if_pos (by omega),
      hget _ _ _ (by omega)]; simp
  have hdl : ∀ (m : Nat) (b : K), (decay b r m).length = m := by
    intro m; induction m with
    | zero => intro b; rfl
    | succ m ih => intro b; simp [decay, ih]
  rw [compress_eq _ (Sampling.fill dt (k + 2) 0) a _ _ (by simp [hdl]) rfl rfl hl hp]
  have hfill : Sampling.fill dt (k + 2) 0 ++ [((k + 1 : Nat) : K) * dt + (((k + 1 : Nat) : K) * dt - (k : K) * dt)]
      = Sampling.fill dt (k + 3) 0 := by
    apply List.ext_getElem?
    intro i
    rcases Nat.lt_trichotomy i (k + 2) with h | h | h
    · rw [List.getElem?_append_left (by rw [hfl]; exact h), hget _ _ _ h, hget _ _ _ (by omega)]
    · subst h
      rw [List.getElem?_append_right (by rw [hfl]), hfl, hget _ _ _ (by omega)]
      simp; ring
    · rw [List.getElem?_eq_none (by simp [hfl]; omega), List.getElem?_eq_none (by rw [hfl]; omega)]
  rw [hfill]
  simp only
  have hdec : decay a r (k + 2) ++ [a] = a :: (a * r) :: (decay (a * r * r) r k ++ [a]) := rfl
  have hdec' : decay (a * r) r (k + 1) ++ [a] = (a * r) :: (decay (a * r * r) r k ++ [a]) := rfl
  have hf3 : Sampling.fill dt (k + 3) 0 = 0 :: (0 + dt) :: Sampling.fill dt (k + 1) (0 + dt + dt) := rfl
  have hf2 : Sampling.fill dt (k + 2) (0 + dt) = (0 + dt) :: Sampling.fill dt (k + 1) (0 + dt + dt) := rfl
  have hs : slopeOf a 0 (a * r) (0 + dt) = .val (a * r * (1 - 1 / r) / dt) := by
    unfold slopeOf
    rw [if_neg (by linarith)]
    simp only [Slope.val.injEq]
    rw [show 0 + dt - 0 = dt by ring]
    congr 1
    field_simp
  have hmono : a * r ^ (k + 2) * (1 - r) / dt ≤ a * r * r ^ k * (1 - r) / dt := by
    apply div_le_div_of_nonneg_right _ hdt.le
    apply mul_le_mul_of_nonneg_right _ (by linarith)
    have h1 : 0 < a * r ^ (k + 1) := mul_pos ha (pow_pos hrpos _)
    calc a * r ^ (k + 2) = a * r ^ (k + 1) * r := by ring
      _ ≤ a * r ^ (k + 1) := mul_le_of_le_one_right h1.le hr1.le
      _ = a * r * r ^ k := by ring
  have loop := decay_loop a r dt hr0 hr1 hdt k (a * r) (0 + dt) (mul_pos ha hrpos) (by nlinarith)
    (lt_of_lt_of_le hbig hmono)
  rw [hdec', hf2] at loop
  rw [hdec, hf3, compressLoop]
  simp only [hs, loop, Res.bind]
  rw [if_pos (by rfl)]
  simp only [List.cons_append, List.nil_append, Res.ok.injEq, Waveform.mk.injEq, List.cons.injEq, and_true,
    Option.some.injEq, true_and]
  refine ⟨by rw [show k + 2 - 1 = k + 1 by omega]; ring, ?_, ?_⟩
  · rw [show k + 2 - 1 = k + 1 by omega]; push_cast; ring
  · push_cast; ring

example : compress (K := ℚ) ⟨[0, 1, 2, 1], some [0, 1, 2, 3], none⟩ = .ok ⟨[0, 2, 0], some [0, 2, 4], none⟩ := by
  decide +kernel
example : NoTinySlopes (K := ℚ) ([0, 1, 2, 1] ++ [0]) ([0, 1, 2, 3] ++ [4]) := by
  simp only [NoTinySlopes, List.cons_append, List.nil_append]; norm_num [abs_of_pos, abs_of_neg]

end Verif.Waveforms
