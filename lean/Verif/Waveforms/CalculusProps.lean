import Verif.Waveforms.Props

/-! # Derivatives, integrals and changes of the time scale (C125, C132) -/

namespace Verif.Waveforms

open Verif.Round (roundFloat)

set_option linter.unusedSectionVars false
set_option linter.unusedSimpArgs false

variable {K : Type} [Field K] [LinearOrder K] [IsStrictOrderedRing K] [FloorRing K]

/-! ## Lemmas: the derivative -/

theorem differences_length : ∀ l : List K, (differences l).length = l.length - 1
  | [] => rfl
  | [_] => rfl
  | a :: b :: l => by simp [differences, differences_length (b :: l)]

theorem differences_take : ∀ (l : List K) (x : K), (differences (l ++ [x])).take (l.length - 1) = differences l
  | [], x => rfl
  | [a], x => rfl
  | a :: b :: l, x => by
    have ih := differences_take (b :: l) x
    simp only [List.cons_append, differences, List.length_cons, Nat.add_sub_cancel, List.take_succ_cons] at ih ⊢
    rw [ih]

/-- The steps of the derivative of a waveform whose times all differ. -/
def pieces : List K → List K → List K × List K
  | d0 :: d1 :: ds, t0 :: t1 :: ts =>
    let q := (d1 - d0) / (t1 - t0)
    let r := pieces (d1 :: ds) (t1 :: ts)
    (q :: q :: r.1, t0 :: t1 :: r.2)
  | _, _ => ([], [])

theorem pieces_lengths : ∀ D T : List K, (pieces D T).1.length = (pieces D T).2.length
  | d0 :: d1 :: ds, t0 :: t1 :: ts => by simp [pieces, pieces_lengths (d1 :: ds) (t1 :: ts)]
  | [], _ => by simp [pieces]
  | [_], _ => by simp [pieces]
  | _ :: _ :: _, [] => by simp [pieces]
  | _ :: _ :: _, [_] => by simp [pieces]

theorem steps_pieces : ∀ (D T : List K) (y : K), D.length = T.length → T.Pairwise (· < ·) →
    steps (differences D) (differences (T ++ [y])) T = .ok (pieces D T)
  | [], T, y, _, _ => by simp [differences, steps, pieces]
  | [d], T, y, _, _ => by simp [differences, steps, pieces]
  | d0 :: d1 :: ds, [], y, h, _ => by simp at h
  | d0 :: d1 :: ds, [t], y, h, _ => by simp at h
  | d0 :: d1 :: ds, t0 :: t1 :: ts, y, h, hT => by
    have ih := steps_pieces (d1 :: ds) (t1 :: ts) y (by simpa using h) (List.pairwise_cons.mp hT).2
    have ht : t0 < t1 := (List.pairwise_cons.mp hT).1 t1 (by simp)
    simp only [List.cons_append] at ih ⊢
    simp only [differences, steps]
    rw [if_neg (sub_pos.mpr ht).ne']
    rw [ih]
    simp [Res.bind, pieces]

theorem pieces_head (d0 d1 t0 t1 : K) (ds ts : List K) :
    (pieces (d0 :: d1 :: ds) (t0 :: t1 :: ts)).2.head? = some t0 := by simp [pieces]

theorem span_pos (t0 t1 : K) (ts : List K) (hT : (t0 :: t1 :: ts).Pairwise (· < ·)) :
    ∃ p, span (t0 :: t1 :: ts) = some p ∧ 0 < p := by
  obtain ⟨tl, hl⟩ : ∃ x, (t0 :: t1 :: ts).getLast? = some x := ⟨_, List.getLast?_eq_getLast_of_ne_nil (by simp)⟩
  refine ⟨tl - t0, by simp [span, hl], ?_⟩
  have : tl ∈ t1 :: ts := by
    rw [List.getLast?_cons_cons] at hl
    exact List.mem_of_getLast? hl
  exact sub_pos.mpr ((List.pairwise_cons.mp hT).1 tl this)

theorem differences_last : ∀ (T : List K) (tl x : K), T.getLast? = some tl →
    (differences (T ++ [x]))[T.length - 1]? = some (x - tl)
  | [], tl, x, h => by simp at h
  | [t], tl, x, h => by
    simp at h; subst h; simp [differences]
  | a :: b :: l, tl, x, h => by
    rw [List.getLast?_cons_cons] at h
    have ih := differences_last (b :: l) tl x h
    simp only [List.cons_append, differences, List.length_cons, Nat.add_sub_cancel] at ih ⊢
    rw [List.getElem?_cons_succ]; exact ih

/-- The derivative of a waveform that is not sampled and whose times all differ. -/
theorem derivative_pieces (w : Waveform K) (setting : Nat) (d0 d1 t0 t1 : K) (ds ts : List K)
    (hd : w.data = d0 :: d1 :: ds) (ht : w.time = some (t0 :: t1 :: ts)) (hlen : ds.length = ts.length)
    (hT : (t0 :: t1 :: ts).Pairwise (· < ·)) (hns : isSampled w setting = false) :
    ∃ v, derivative w setting =
      .ok { data := v :: (pieces w.data (t0 :: t1 :: ts)).1,
            time := some (t0 :: (pieces w.data (t0 :: t1 :: ts)).2), label := none } := by
  obtain ⟨p, hp, hp0⟩ := span_pos t0 t1 ts hT
  obtain ⟨tl, hl⟩ : ∃ x, (t0 :: t1 :: ts).getLast? = some x := ⟨_, List.getLast?_eq_getLast_of_ne_nil (by simp)⟩
  have hle : w.data.length = (t0 :: t1 :: ts).length := by rw [hd]; simp [hlen]
  have hlen' : w.data.length - 1 = (t0 :: t1 :: ts).length - 1 := by rw [hle]
  have hlast := differences_last (t0 :: t1 :: ts) tl (tl + p) hl
  have hst := steps_pieces w.data (t0 :: t1 :: ts) (tl + p) hle hT
  obtain ⟨v, hv⟩ : ∃ v, (pieces w.data (t0 :: t1 :: ts)).1.getLast? = some v := by
    rw [hd]; exact ⟨_, List.getLast?_eq_getLast_of_ne_nil (by simp [pieces])⟩
  have hh : (pieces w.data (t0 :: t1 :: ts)).2.head? = some t0 := by rw [hd]; exact pieces_head ..
  refine ⟨v, ?_⟩
  unfold derivative
  simp only [ht]
  have hda := differences_take w.data d0
  rw [hd]
  rw [hd] at hst hda hlen' hv hh
  rw [hlen'] at hda
  simp only [hns, Bool.false_eq_true, if_false, hp, hl, Option.getD_some, hda, hst, Res.bind, hlen', hlast, hda]
  rw [if_neg (by rw [add_sub_cancel_left]; exact hp0.ne'), hh, hv]

/-! ## Lemmas: the integral -/

theorem accumulate_length : ∀ (acc : K) (D T : List K), D.length = T.length →
    (accumulate acc D T).length = D.length - 1
  | acc, [], T, _ => by simp [accumulate]
  | acc, [d], T, _ => by simp [accumulate]
  | acc, d0 :: d1 :: ds, [], h => by simp at h
  | acc, d0 :: d1 :: ds, [t], h => by simp at h
  | acc, d0 :: d1 :: ds, t0 :: t1 :: ts, h => by
    have := accumulate_length (acc + d0 * (t1 - t0)) (d1 :: ds) (t1 :: ts) (by simpa using h)
    simp [accumulate, this]

theorem distinctFrom_pieces (c : K) : ∀ (acc v d0 t0 : K) (Ds Ts : List K), Ds.length = Ts.length →
    (t0 :: Ts).Pairwise (· < ·) →
    distinctFrom (acc + c) t0
      ((accumulate acc (v :: (pieces (d0 :: Ds) (t0 :: Ts)).1) (t0 :: (pieces (d0 :: Ds) (t0 :: Ts)).2)).map (· + c))
      (pieces (d0 :: Ds) (t0 :: Ts)).2 = .ok (Ds.map (fun d => acc + (d - d0) + c), Ts)
  | acc, v, d0, t0, [], Ts, h, _ => by
    have : Ts = [] := by simpa using h.symm
    subst this
    simp [pieces, accumulate, distinctFrom]
  | acc, v, d0, t0, d1 :: ds, [], h, _ => by simp at h
  | acc, v, d0, t0, d1 :: ds, t1 :: ts, h, hT => by
    have ht : t0 < t1 := (List.pairwise_cons.mp hT).1 t1 (by simp)
    have hne : t1 - t0 ≠ 0 := (sub_pos.mpr ht).ne'
    have ih := distinctFrom_pieces c (acc + (d1 - d0)) ((d1 - d0) / (t1 - t0)) d1 t1 ds ts (by simpa using h)
      (List.pairwise_cons.mp hT).2
    simp only [pieces, accumulate, sub_self, mul_zero, add_zero, List.map_cons]
    rw [distinctFrom, if_pos ⟨rfl, rfl⟩, div_mul_cancel₀ _ hne, distinctFrom,
      if_neg (fun e => ht.ne' e.2), ih]
    simp only [Res.bind, Res.ok.injEq, Prod.mk.injEq, List.cons.injEq, and_true, true_and]
    apply List.map_congr_left
    intro d _
    ring

theorem trapezia_pieces : ∀ (acc v d0 t0 : K) (Ds Ts : List K), Ds.length = Ts.length →
    (t0 :: Ts).Pairwise (· < ·) →
    trapezia (acc :: accumulate acc (v :: (pieces (d0 :: Ds) (t0 :: Ts)).1) (t0 :: (pieces (d0 :: Ds) (t0 :: Ts)).2))
      (t0 :: (pieces (d0 :: Ds) (t0 :: Ts)).2)
      = trapezia (acc :: Ds.map (fun d => acc + (d - d0))) (t0 :: Ts)
  | acc, v, d0, t0, [], Ts, h, _ => by
    have : Ts = [] := by simpa using h.symm
    subst this
    simp [pieces, accumulate, trapezia]
  | acc, v, d0, t0, d1 :: ds, [], h, _ => by simp at h
  | acc, v, d0, t0, d1 :: ds, t1 :: ts, h, hT => by
    have ht : t0 < t1 := (List.pairwise_cons.mp hT).1 t1 (by simp)
    have hne : t1 - t0 ≠ 0 := (sub_pos.mpr ht).ne'
    have ih := trapezia_pieces (acc + (d1 - d0)) ((d1 - d0) / (t1 - t0)) d1 t1 ds ts (by simpa using h)
      (List.pairwise_cons.mp hT).2
    simp only [pieces, accumulate, sub_self, mul_zero, add_zero, List.map_cons]
    rw [div_mul_cancel₀ _ hne]
    rw [trapezia, trapezia, ih]
    have e : (ds.map fun d => acc + (d1 - d0) + (d - d1)) = ds.map (fun d => acc + (d - d0)) :=
      List.map_congr_left fun d _ => by ring
    rw [e, trapezia]
    simp only [sub_self, mul_zero, zero_add]
    cases trapezia ((acc + (d1 - d0)) :: ds.map fun d => acc + (d - d0)) (t1 :: ts) <;> simp [Res.bind]

theorem pieces_getLast : ∀ (d0 t0 : K) (Ds Ts : List K), Ds.length = Ts.length →
    (t0 :: (pieces (d0 :: Ds) (t0 :: Ts)).2).getLast? = (t0 :: Ts).getLast?
  | d0, t0, [], Ts, h => by
    have : Ts = [] := by simpa using h.symm
    subst this; simp [pieces]
  | d0, t0, d1 :: ds, [], h => by simp at h
  | d0, t0, d1 :: ds, t1 :: ts, h => by
    have ih := pieces_getLast d1 t1 ds ts (by simpa using h)
    simp only [pieces]
    rw [List.getLast?_cons_cons, List.getLast?_cons_cons, ih, List.getLast?_cons_cons]

theorem span_map_shift (ts : List K) (ts' : List K) (t0 : K) (h : ts.getLast? = ts'.getLast?)
    (h0 : ts.head? = some t0) (h1 : ts'.head? = some t0) : span ts = span ts' := by
  unfold span; rw [h, h0, h1]

/-! ## C125: differentiating and integrating -/

/-- The sampled branch: quotients of the differences, on the times of the waveform. -/
theorem quotients_accumulate : ∀ (acc d0 t0 x y : K) (Ds Ts : List K), Ds.length = Ts.length →
    (t0 :: Ts ++ [y]).Pairwise (· < ·) →
    ∃ q, quotients (differences (d0 :: Ds ++ [x])) (differences (t0 :: Ts ++ [y])) = .ok q ∧
      q.length = Ds.length + 1 ∧ accumulate acc q (t0 :: Ts) = Ds.map (fun d => acc + (d - d0))
  | acc, d0, t0, x, y, [], Ts, h, hT => by
    have : Ts = [] := by simpa using h.symm
    subst this
    have ht : t0 < y := (List.pairwise_cons.mp hT).1 y (by simp)
    refine ⟨[(x - d0) / (y - t0)], ?_, by simp, by simp [accumulate]⟩
    simp [differences, quotients, (sub_pos.mpr ht).ne', Res.bind]
  | acc, d0, t0, x, y, d1 :: ds, [], h, _ => by simp at h
  | acc, d0, t0, x, y, d1 :: ds, t1 :: ts, h, hT => by
    have ht : t0 < t1 := (List.pairwise_cons.mp hT).1 t1 (by simp)
    have hne : t1 - t0 ≠ 0 := (sub_pos.mpr ht).ne'
    obtain ⟨q, e1, e2, e3⟩ := quotients_accumulate (acc + (d1 - d0)) d1 t1 x y ds ts (by simpa using h)
      (List.pairwise_cons.mp hT).2
    refine ⟨(d1 - d0) / (t1 - t0) :: q, ?_, by simp [e2], ?_⟩
    · simp only [List.cons_append, differences, quotients] at e1 ⊢
      rw [if_neg hne, e1]; rfl
    · rcases q with _ | ⟨q0, qs⟩
      · simp at e2
      · rw [accumulate, div_mul_cancel₀ _ hne, e3]
        simp only [List.map_cons, List.cons.injEq, true_and]
        exact List.map_congr_left fun d _ => by ring

theorem distinctFrom_strict : ∀ (d t : K) (D T : List K), D.length = T.length → (t :: T).Pairwise (· < ·) →
    distinctFrom d t D T = .ok (D, T)
  | d, t, [], T, h, _ => by
    have : T = [] := by simpa using h.symm
    subst this; rfl
  | d, t, d1 :: ds, [], h, _ => by simp at h
  | d, t, d1 :: ds, t1 :: ts, h, hT => by
    have ht : t < t1 := (List.pairwise_cons.mp hT).1 t1 (by simp)
    rw [distinctFrom, if_neg (fun e => ht.ne' e.2),
      distinctFrom_strict d1 t1 ds ts (by simpa using h) (List.pairwise_cons.mp hT).2]
    rfl

theorem trapezia_shift (c : K) : ∀ (D T : List K), D.length = T.length → ∀ (a : K), trapezia D T = .ok a →
    ∃ (t0 tl : K), T = [] ∨ (T.head? = some t0 ∧ T.getLast? = some tl ∧
      trapezia (D.map (· + c)) T = .ok (a + c * (tl - t0)))
  | [], T, h, a, ha => by
    have : T = [] := by simpa using h.symm
    exact ⟨0, 0, Or.inl this⟩
  | [d], [t], h, a, ha => by
    simp only [trapezia, Res.ok.injEq] at ha
    exact ⟨t, t, Or.inr ⟨rfl, rfl, by simp [trapezia, ha.symm]⟩⟩
  | [d], [], h, a, ha => by simp at h
  | [d], _ :: _ :: _, h, a, ha => by simp at h
  | d0 :: d1 :: ds, [], h, a, ha => by simp at h
  | d0 :: d1 :: ds, [t], h, a, ha => by simp at h
  | d0 :: d1 :: ds, t0 :: t1 :: ts, h, a, ha => by
    rw [trapezia] at ha
    cases hr : trapezia (d1 :: ds) (t1 :: ts) with
    | throws => rw [hr] at ha; simp [Res.bind] at ha
    | nan => rw [hr] at ha; simp [Res.bind] at ha
    | ub => rw [hr] at ha; simp [Res.bind] at ha
    | ok b =>
      rw [hr] at ha
      simp only [Res.bind, Res.ok.injEq] at ha
      obtain ⟨u, tl, e⟩ := trapezia_shift c (d1 :: ds) (t1 :: ts) (by simpa using h) b hr
      rcases e with e | ⟨e1, e2, e3⟩
      · simp at e
      · simp only [List.head?_cons, Option.some.injEq] at e1
        subst e1
        refine ⟨t0, tl, Or.inr ⟨rfl, by rw [List.getLast?_cons_cons]; exact e2, ?_⟩⟩
        simp only [List.map_cons] at e3 ⊢
        rw [trapezia, e3]
        simp only [Res.bind, Res.ok.injEq]
        rw [← ha]; ring

/-- C125: differentiating a waveform and integrating the result gives the waveform back, raised so as to start from
zero, whether or not it is sampled, provided its times increase strictly. -/
theorem integral_of_derivative (w : Waveform K) (setting : Nat) (ts : List K) (d0 : K) (h2 : 2 ≤ w.data.length)
    (ht : w.time = some ts) (hs : ts.length = w.data.length) (hd : w.data.head? = some d0)
    (hT : ts.Pairwise (· < ·)) :
    ∃ v, derivative w setting = .ok v ∧
      integral v false = .ok { data := w.data.map (· - d0), time := some ts, label := none } := by
  rcases hw : w.data with _ | ⟨a, _ | ⟨d1, ds⟩⟩
  · rw [hw] at h2; simp at h2
  · rw [hw] at h2; simp at h2
  rcases hts : ts with _ | ⟨t0, _ | ⟨t1, tr⟩⟩
  · rw [hts, hw] at hs; simp at hs
  · rw [hts, hw] at hs; simp at hs
  rw [hw] at hd
  simp only [List.head?_cons, Option.some.injEq] at hd
  subst hd
  rw [hts] at ht hT
  have hlen : ds.length = tr.length := by rw [hw, hts] at hs; simpa using hs.symm
  rw [hts, hw] at hs
  by_cases hsm : isSampled w setting = true
  · -- the grid of the waveform is kept
    obtain ⟨tl, tp, r, hrev⟩ : ∃ tl tp r, (t0 :: t1 :: tr).reverse = tl :: tp :: r := by
      rcases hr : (t0 :: t1 :: tr).reverse with _ | ⟨x, _ | ⟨y, r⟩⟩
      · simp at hr
      · have := congrArg List.length hr; simp at this
      · exact ⟨x, y, r, rfl⟩
    have hform : t0 :: t1 :: tr = r.reverse ++ [tp] ++ [tl] := by
      have := congrArg List.reverse hrev; simpa using this
    have hpl : tp < tl := by
      rw [hform] at hT
      exact (List.pairwise_append.mp hT).2.2 tp (by simp) tl (by simp)
    have hmax : ∀ x ∈ t0 :: t1 :: tr, x ≤ tl := by
      intro x hx
      rw [hform] at hx hT
      rcases List.mem_append.mp hx with e | e
      · exact ((List.pairwise_append.mp hT).2.2 x e tl (by simp)).le
      · simp only [List.mem_singleton] at e; rw [e]
    have hT' : (t0 :: (t1 :: tr) ++ [tl + (tl - tp)]).Pairwise (· < ·) := by
      rw [List.pairwise_append]
      refine ⟨hT, by simp, fun x hx y hy => ?_⟩
      simp only [List.mem_singleton] at hy
      have := hmax x hx
      rw [hy]; linarith
    obtain ⟨q, e1, e2, e3⟩ := quotients_accumulate 0 a t0 a (tl + (tl - tp)) (d1 :: ds) (t1 :: tr)
      (by simpa using hlen) hT'
    refine ⟨⟨q, some (t0 :: t1 :: tr), none⟩, ?_, ?_⟩
    · unfold derivative
      simp only [ht, hw, hsm, if_true, hrev]
      rw [show a :: d1 :: ds ++ [a] = a :: (d1 :: ds) ++ [a] from rfl,
        show t0 :: t1 :: tr ++ [tl + (tl - tp)] = t0 :: (t1 :: tr) ++ [tl + (tl - tp)] from rfl, e1]
      rfl
    · unfold integral
      have hm : min q.length (t0 :: t1 :: tr).length = tr.length + 2 := by rw [e2]; simp [hlen]
      simp only [hm]
      rw [if_neg (by omega)]
      have hq : q.take (tr.length + 2) = q := List.take_of_length_le (by rw [e2]; simp [hlen])
      have ht' : (t0 :: t1 :: tr).take (tr.length + 2) = t0 :: t1 :: tr := List.take_of_length_le (by simp)
      simp only [Bool.false_eq_true, if_false, Res.bind, hq, ht', e3, distinct]
      rw [distinctFrom_strict _ _ _ _ (by simpa using hlen) hT]
      simp
  · obtain ⟨v, hv⟩ := derivative_pieces w setting a d1 t0 t1 ds tr hw ht hlen hT (by simpa using hsm)
    rw [hw] at hv
    refine ⟨_, hv, ?_⟩
    have hpl := pieces_lengths (a :: d1 :: ds) (t0 :: t1 :: tr)
    unfold integral
    simp only [List.length_cons, hpl, Nat.min_self, if_neg (Nat.succ_ne_zero _), Bool.false_eq_true, if_false]
    rw [List.take_of_length_le (by simp [hpl]), List.take_of_length_le (by simp)]
    have := distinctFrom_pieces 0 0 v a t0 (d1 :: ds) (t1 :: tr) (by simpa using hlen) hT
    simp only [add_zero, List.map_id'] at this
    simp only [Res.bind, distinct, this]
    simp

/-- C125: with the average subtracted as well, what comes back is the waveform less its own average. -/
theorem integral_of_derivative_centred (w : Waveform K) (setting : Nat) (ts : List K) (h2 : 2 ≤ w.data.length)
    (ht : w.time = some ts) (hs : ts.length = w.data.length)
    (hT : ts.Pairwise (· < ·)) (hns : isSampled w setting = false) :
    ∃ v a, derivative w setting = .ok v ∧ average w = .ok a ∧
      integral v true = .ok { data := w.data.map (· - a), time := some ts, label := none } := by
  rcases hw : w.data with _ | ⟨d0, _ | ⟨d1, ds⟩⟩
  · rw [hw] at h2; simp at h2
  · rw [hw] at h2; simp at h2
  rcases hts : ts with _ | ⟨t0, _ | ⟨t1, tr⟩⟩
  · rw [hts, hw] at hs; simp at hs
  · rw [hts, hw] at hs; simp at hs
  rw [hts] at ht hT
  have hlen : ds.length = tr.length := by rw [hw, hts] at hs; simpa using hs.symm
  obtain ⟨v, hv⟩ := derivative_pieces w setting d0 d1 t0 t1 ds tr hw ht hlen hT hns
  rw [hw] at hv
  obtain ⟨p, hp, hp0⟩ := span_pos t0 t1 tr hT
  -- the trapezia of the waveform
  obtain ⟨A, hA⟩ : ∃ A, trapezia (d0 :: d1 :: ds) (t0 :: t1 :: tr) = .ok A := by
    have : ∀ (D T : List K), D.length = T.length → ∃ A, trapezia D T = .ok A := by
      intro D
      induction D with
      | nil => intro T _; exact ⟨0, by simp [trapezia]⟩
      | cons x D ih =>
        intro T hDT
        rcases D with _ | ⟨y, D⟩
        · exact ⟨0, by simp [trapezia]⟩
        · rcases T with _ | ⟨u, _ | ⟨v, T⟩⟩
          · simp at hDT
          · simp at hDT
          · obtain ⟨B, hB⟩ := ih (v :: T) (by simpa using hDT)
            exact ⟨_, by rw [trapezia, hB]; rfl⟩
    exact this _ _ (by simp [hlen])
  obtain ⟨tl, hl⟩ : ∃ x, (t0 :: t1 :: tr).getLast? = some x := ⟨_, List.getLast?_eq_getLast_of_ne_nil (by simp)⟩
  have hpe : p = tl - t0 := by
    have : span (t0 :: t1 :: tr) = some (tl - t0) := by simp [span, hl]
    rw [this] at hp; exact (Option.some.inj hp).symm
  have hav : average w = .ok (A / p) := by
    unfold average
    simp only [ht, hw, hp, hA, Res.bind]
    simp [hp0.ne']
  refine ⟨_, A / p, hv, hav, ?_⟩
  have hpl := pieces_lengths (d0 :: d1 :: ds) (t0 :: t1 :: tr)
  -- the average of the integral, repeated points included, is that of the waveform less its first value
  have htz : trapezia (0 :: accumulate 0 (v :: (pieces (d0 :: d1 :: ds) (t0 :: t1 :: tr)).1)
      (t0 :: (pieces (d0 :: d1 :: ds) (t0 :: t1 :: tr)).2)) (t0 :: (pieces (d0 :: d1 :: ds) (t0 :: t1 :: tr)).2)
      = .ok (A + -d0 * (tl - t0)) := by
    rw [trapezia_pieces 0 v d0 t0 (d1 :: ds) (t1 :: tr) (by simpa using hlen) hT]
    obtain ⟨u, x, e⟩ := trapezia_shift (-d0) (d0 :: d1 :: ds) (t0 :: t1 :: tr) (by simp [hlen]) A hA
    rcases e with e | ⟨e1, e2, e3⟩
    · simp at e
    · rw [hl] at e2
      simp only [List.head?_cons, Option.some.injEq] at e1 e2
      subst e1 e2
      rw [← e3]
      congr 1
      simp [sub_eq_add_neg]
  have hspan : span (t0 :: (pieces (d0 :: d1 :: ds) (t0 :: t1 :: tr)).2) = some p := by
    unfold span
    rw [pieces_getLast d0 t0 (d1 :: ds) (t1 :: tr) (by simpa using hlen), hl, hpe]
    rfl
  unfold integral
  simp only [List.length_cons, hpl, Nat.min_self, if_neg (Nat.succ_ne_zero _), if_true]
  rw [List.take_of_length_le (by simp [hpl]), List.take_of_length_le (by simp)]
  have hav2 : average (K := K) ⟨0 :: accumulate 0 (v :: (pieces (d0 :: d1 :: ds) (t0 :: t1 :: tr)).1)
      (t0 :: (pieces (d0 :: d1 :: ds) (t0 :: t1 :: tr)).2),
      some (t0 :: (pieces (d0 :: d1 :: ds) (t0 :: t1 :: tr)).2), none⟩ = .ok (A / p - d0) := by
    unfold average
    simp only [hspan, htz, Res.bind]
    rw [if_neg (by simp), if_neg hp0.ne', ← hpe]
    simp only [Res.ok.injEq]
    field_simp; ring
  simp only [hav2, Res.bind, sum, distinct, List.map_cons]
  have hdf := distinctFrom_pieces (-(A / p - d0)) 0 v d0 t0 (d1 :: ds) (t1 :: tr) (by simpa using hlen) hT
  rw [hdf]
  simp only [Res.ok.injEq, Waveform.mk.injEq, List.map_cons, List.cons.injEq, and_true]
  refine ⟨by ring, by ring, ?_⟩
  exact List.map_congr_left fun d _ => by ring

/-- C125: jumps have no derivative here: that of a rectangular waveform, taken from its corners, is zero
everywhere, so that nothing of the waveform comes back. -/
theorem jump_lost (mn mx dc T : K) (label : Option Label) (setting : Nat) (hd0 : 0 < dc) (hdT : dc < T)
    (hset : 5 < setting) :
    ∃ (v : Waveform K) (us : List K), derivative ⟨[mn, mx, mx, mn, mn], some [0, 0, dc, dc, T], label⟩ setting = .ok v ∧
      v.data = [0, 0, 0, 0, 0] ∧ v.time = some us ∧ integral v false = .ok ⟨[0, 0, 0], some [0, dc, T], none⟩ := by
  have hT : 0 < T := hd0.trans hdT
  have hns : isSampled (K := K) ⟨[mn, mx, mx, mn, mn], some [0, 0, dc, dc, T], label⟩ setting = false := by
    have h1 : ¬ setting < 5 := by omega
    have h2 : ¬ 5 = setting := by omega
    simp [isSampled, isImported, h1, h2]
  have hne : T - dc ≠ 0 := (sub_pos.mpr hdT).ne'
  refine ⟨⟨[0, 0, 0, 0, 0], some [0, 0, dc, dc, T], none⟩, [0, 0, dc, dc, T], ?_, rfl, rfl, ?_⟩
  · unfold derivative
    simp only [hns, Bool.false_eq_true, if_false, span]
    simp [differences, steps, hd0.ne', hne, hT.ne', Res.bind]
  · unfold integral
    simp [accumulate, distinct, distinctFrom, Res.bind, hd0.ne', hdT.ne', hT.ne']

/-! ## C132: changing the time scale -/

/-- C132: a waveform brought to a frequency lasts one period of it, keeps its values and its label, and keeps its
average. -/
theorem scaled_period (w v : Waveform K) (f : K) (h : scaleTime w f = .ok v) :
    v.data = w.data ∧ v.label = w.label ∧ (∃ ts, v.time = some ts ∧ span ts = some (1 / f)) ∧
      average v = average w := by
  unfold scaleTime at h
  rcases ht : w.time with _ | ts
  · rw [ht] at h; simp at h
  rw [ht] at h
  simp only at h
  rcases hp : span ts with _ | p
  · rw [hp] at h; simp at h
  rw [hp] at h
  simp only at h
  by_cases h0 : p = 0 ∨ f = 0
  · rw [if_pos h0] at h; simp at h
  rw [if_neg h0] at h
  simp only [Res.ok.injEq] at h
  push Not at h0
  obtain ⟨hp0, hf0⟩ := h0
  subst h
  have hspan : span (ts.map fun t => t * (1 / p) / f) = some (1 / f) := by
    unfold span at hp ⊢
    rw [List.head?_map, List.getLast?_map]
    cases hh : ts.head? with
    | none => rw [hh] at hp; simp at hp
    | some a => cases hl : ts.getLast? with
      | none => rw [hh, hl] at hp; simp at hp
      | some b =>
        rw [hh, hl] at hp
        simp only [Option.some.injEq] at hp
        simp only [Option.map_some, Option.some.injEq]
        subst hp
        field_simp
  refine ⟨rfl, rfl, ⟨_, rfl, hspan⟩, ?_⟩
  have htz : ∀ D T : List K, trapezia D (T.map fun t => t * (1 / p) / f)
      = (trapezia D T).bind fun a => .ok (a / (p * f)) := by
    intro D
    induction D with
    | nil => intro T; simp [trapezia, Res.bind]
    | cons x D ih =>
      intro T
      rcases D with _ | ⟨y, D⟩
      · simp [trapezia, Res.bind]
      · rcases T with _ | ⟨u, _ | ⟨z, T⟩⟩
        · simp [trapezia, Res.bind]
        · simp [trapezia, Res.bind]
        · have e := ih (z :: T)
          simp only [List.map_cons] at e ⊢
          rw [trapezia, trapezia, e]
          cases trapezia (y :: D) (z :: T) with
          | ok a =>
            simp only [Res.bind, Res.ok.injEq]
            field_simp
          | throws => simp [Res.bind]
          | nan => simp [Res.bind]
          | ub => simp [Res.bind]
  unfold average
  simp only [ht, hp, hspan, htz]
  by_cases hd : w.data = []
  · simp [hd]
  · rw [if_neg hd, if_neg hd]
    cases trapezia w.data ts with
    | ok a =>
      simp only [Res.bind]
      rw [if_neg (by simp [hf0]), if_neg hp0]
      simp only [Res.ok.injEq]
      field_simp
    | throws => simp [Res.bind]
    | nan => simp [Res.bind]
    | ub => simp [Res.bind]

/-- C132: bringing a waveform to one frequency and then to another is bringing it to the other. -/
theorem scaled_twice (w v : Waveform K) (f g : K) (hg : g ≠ 0) (h : scaleTime w f = .ok v) :
    scaleTime v g = scaleTime w g := by
  obtain ⟨_, _, ⟨ts', ht', hsp⟩, _⟩ := scaled_period w v f h
  unfold scaleTime at h
  rcases ht : w.time with _ | ts
  · rw [ht] at h; simp at h
  rw [ht] at h
  simp only at h
  rcases hp : span ts with _ | p
  · rw [hp] at h; simp at h
  rw [hp] at h
  simp only at h
  by_cases h0 : p = 0 ∨ f = 0
  · rw [if_pos h0] at h; simp at h
  rw [if_neg h0] at h
  simp only [Res.ok.injEq] at h
  push Not at h0
  obtain ⟨hp0, hf0⟩ := h0
  subst h
  simp only [Option.some.injEq] at ht'
  subst ht'
  unfold scaleTime
  simp only [ht, hp, hsp]
  rw [if_neg (by push Not; exact ⟨one_div_ne_zero hf0, hg⟩), if_neg (by push Not; exact ⟨hp0, hg⟩)]
  simp only [Res.ok.injEq, Waveform.mk.injEq, Option.some.injEq, List.map_map, true_and, and_true]
  apply List.map_congr_left
  intro t _
  simp only [Function.comp]
  field_simp

example : derivative (K := ℚ) ⟨[0, 3, 1], some [0, 1, 2], none⟩ 128
    = .ok ⟨[-2, 3, 3, -2, -2], some [0, 0, 1, 1, 2], none⟩ := by decide +kernel
example : integral (K := ℚ) ⟨[-2, 3, 3, -2, -2], some [0, 0, 1, 1, 2], none⟩ false
    = .ok ⟨[0, 3, 1], some [0, 1, 2], none⟩ := by decide +kernel
example : scaleTime (K := ℚ) ⟨[0, 3, 1], some [0, 1, 2], none⟩ 10
    = .ok ⟨[0, 3, 1], some [0, 1 / 20, 1 / 10], none⟩ := by decide +kernel

end Verif.Waveforms
