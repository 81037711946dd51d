import Verif.Reader.PeriodProps

/-!
# One window for all the signals of a time

Property C280.
-/

set_option linter.unusedSimpArgs false
set_option linter.unusedVariables false
set_option linter.unusedSectionVars false

namespace Verif.Reader

section
variable {K : Type} [Field K] [LinearOrder K] [IsStrictOrderedRing K]

/-- The waveform of a signal on its time. -/
def wave (signal time : Column K) : Wave K := { time := (samples signal time).map (·.1), data := (samples signal time).map (·.2) }

theorem samples_ne_nil {signal time : Column K} (hlen : signal.data.length = time.data.length) (hne : time.data ≠ []) :
    samples signal time ≠ [] := by
  refine collapse_ne_nil fun h => hne ?_
  have : ((time.data.zip signal.data).map (·.1)) = time.data := List.map_fst_zip (by omega)
  rw [h] at this; exact this.symm

theorem extractRaw_cached {windows : Windows} {signal time : Column K} {win : Nat × Nat} (h : windows.lookup time.name = some win)
    (hlen : signal.data.length = time.data.length) (hne : time.data ≠ []) (frequency : K) :
    extractRaw windows signal time frequency = (windows, cut (wave signal time) win) := by
  unfold extractRaw
  rw [if_neg (by omega)]
  simp only
  unfold onePeriod
  rw [if_neg (by simp)]
  have hs := samples_ne_nil hlen hne
  obtain ⟨last, hl⟩ : ∃ last, ((samples signal time).map (·.1)).getLast? = some last :=
    ⟨_, List.getLast?_eq_getLast_of_ne_nil (by simpa using hs)⟩
  have e : (collapse (time.data.zip signal.data)) = samples signal time := rfl
  simp only [e, hl, h]
  rfl

theorem extractRaw_inv {windows ws : Windows} {signal time : Column K} {frequency : K} {w : Wave K}
    (h : extractRaw windows signal time frequency = (ws, .ok w)) :
    signal.data.length = time.data.length ∧ time.data ≠ [] ∧ ∃ win, ws.lookup time.name = some win ∧ cut (wave signal time) win = .ok w ∧
      ((windows.lookup time.name = some win ∧ ws = windows) ∨
        (windows.lookup time.name = none ∧ ws = (time.name, win) :: windows)) := by
  unfold extractRaw at h
  by_cases hlen : signal.data.length = time.data.length
  · rw [if_neg (by omega)] at h
    have hne : time.data ≠ [] := by
      intro h0
      have h1 : collapse (time.data.zip signal.data) = [] := by rw [h0]; rfl
      simp only [h1, onePeriod] at h
      simp at h
    refine ⟨hlen, hne, ?_⟩
    simp only at h
    unfold onePeriod at h
    rw [if_neg (by simp)] at h
    have hs := samples_ne_nil hlen hne
    obtain ⟨last, hl⟩ : ∃ last, ((samples signal time).map (·.1)).getLast? = some last :=
      ⟨_, List.getLast?_eq_getLast_of_ne_nil (by simpa using hs)⟩
    have e : (collapse (time.data.zip signal.data)) = samples signal time := rfl
    simp only [e, hl] at h
    cases hw : windows.lookup time.name with
    | some win =>
      rw [hw] at h
      simp only [Prod.mk.injEq] at h
      obtain ⟨rfl, h⟩ := h
      exact ⟨win, hw, h, .inl ⟨rfl, rfl⟩⟩
    | none =>
      rw [hw] at h
      simp only at h
      cases hf : findWindow frequency ((samples signal time).map (·.1)) ((samples signal time).map (·.2)) last with
      | ok win =>
        rw [hf] at h
        simp only [Prod.mk.injEq] at h
        obtain ⟨rfl, h⟩ := h
        exact ⟨win, by simp, h, .inr ⟨rfl, rfl⟩⟩
      | throw e => rw [hf] at h; simp at h
      | ub => rw [hf] at h; simp at h
  · rw [if_pos hlen] at h; simp at h

/-- The times of the samples of a signal are those of any other on the same time. -/
theorem samples_times {s1 s2 time : Column K} (h1 : s1.data.length = time.data.length) (h2 : s2.data.length = time.data.length) :
    (samples s1 time).map (·.1) = (samples s2 time).map (·.1) := by
  have key : ∀ l1 l2 : List (K × K), l1.map (·.1) = l2.map (·.1) → (collapse l1).map (·.1) = (collapse l2).map (·.1) := by
    intro l1
    induction l1 with
    | nil => intro l2 h; rw [List.map_nil, eq_comm, List.map_eq_nil_iff] at h; rw [h]
    | cons p r ih =>
      intro l2 h
      rcases l2 with _ | ⟨p', r'⟩
      · simp at h
      rw [List.map_cons, List.map_cons, List.cons.injEq] at h
      obtain ⟨hp, hr⟩ := h
      rcases r with _ | ⟨q, r⟩
      · rcases r' with _ | ⟨q', r'⟩
        · simp [collapse, hp]
        · simp at hr
      · rcases r' with _ | ⟨q', r'⟩
        · simp at hr
        · have hq : q.1 = q'.1 := by simp only [List.map_cons, List.cons.injEq] at hr; exact hr.1
          have := ih (q' :: r') hr
          rw [collapse_cons, collapse_cons, hp, hq]
          split_ifs
          · rw [List.map_cons, List.map_cons, this, hp]
          · exact this
  refine key _ _ ?_
  rw [List.map_fst_zip (by omega), List.map_fst_zip (by omega)]

/-- **C280.** Signals on the same time keep aligned: once one was extracted, any other is given the same times and the samples at the same places. -/
theorem same_places {windows ws : Windows} {s1 s2 time : Column K} {frequency : K} {w1 : Wave K}
    (h : extractRaw windows s1 time frequency = (ws, .ok w1)) (h2 : s2.data.length = time.data.length) (frequency' : K) :
    ∃ w2, extractRaw ws s2 time frequency' = (ws, .ok w2) ∧ w2.time = w1.time ∧
      ∃ a n, w1.data = (((samples s1 time).map (·.2)).drop a).take n ∧ w2.data = (((samples s2 time).map (·.2)).drop a).take n := by
  obtain ⟨h1, hne, win, hlook, hcut, _⟩ := extractRaw_inv h
  rw [extractRaw_cached hlook h2 hne]
  have ht := samples_times h1 h2
  have hlen : (samples s1 time).length = (samples s2 time).length := by
    have := congrArg List.length ht
    simpa using this
  unfold cut at hcut ⊢
  have hd1 : (wave s1 time).data.length = (wave s2 time).data.length := by simp [wave, hlen]
  have ht1 : (wave s1 time).time = (wave s2 time).time := ht
  rw [hd1, ht1] at hcut
  by_cases hb : win.2 > (wave s2 time).data.length ∨ win.1 ≥ win.2
  · rw [if_pos hb] at hcut; simp at hcut
  · rw [if_neg hb] at hcut ⊢
    simp only at hcut ⊢
    rcases hp : ((wave s2 time).time.drop win.1).take (win.2 - win.1) with _ | ⟨t, ts⟩
    · rw [hp] at hcut; simp at hcut
    · rw [hp] at hcut
      simp only [Res.ok.injEq] at hcut
      subst hcut
      exact ⟨_, rfl, rfl, win.1, win.2 - win.1, rfl, rfl⟩

/-- **C280.** But the window stays with the reader: for any later request on that time, the frequency asked for makes no difference. -/
theorem frequency_ignored {windows ws : Windows} {s1 time : Column K} {frequency : K} {w1 : Wave K}
    (h : extractRaw windows s1 time frequency = (ws, .ok w1)) (s2 : Column K) (f g : K) :
    extractRaw ws s2 time f = extractRaw ws s2 time g := by
  obtain ⟨h1, hne, win, hlook, hcut, _⟩ := extractRaw_inv h
  by_cases h2 : s2.data.length = time.data.length
  · rw [extractRaw_cached hlook h2 hne, extractRaw_cached hlook h2 hne]
  · rw [lengths_refused _ _ _ _ h2, lengths_refused _ _ _ _ h2]

end

/-- A reader of a file with a time and a voltage, asked for waveforms as they are. -/
def asIs (w : Wave ℚ) (_ : ℚ) : Option (Wave ℚ) := some w
def exampleReader : Reader ℚ := { columns := [{ clock with kind := none }, square], time := clock }

/-- **C280.** An operating point asked for at 1/2 Hz from a reader that was asked for one at 1/4 Hz before: it is told to be at 1/2 Hz, with the
period of 4 s; a new reader gives one of 2 s. -/
theorem asked_before_counterexample :
    (operatingPoint asIs (operatingPoint asIs exampleReader 1 (1 / 4) none).1 1 (1 / 2) none).2 =
      .ok [{ frequency := some (1 / 2), voltage := some { time := [0, 1, 2, 3, 4], data := [1, -1, -1, 1, 1] } }] ∧
    (operatingPoint asIs exampleReader 1 (1 / 2) none).2 =
      .ok [{ frequency := some (1 / 2), voltage := some { time := [0, 1, 2], data := [-1, 1, 1] } }] :=
  ⟨by decide +kernel, by decide +kernel⟩

/-- Case of `same_places` and `frequency_ignored`. -/
example : extractRaw (K := ℚ) [("time".toList, 1, 6)] { name := "I1".toList, data := [0, 1, 2, 3, 4, 5, 6, 7, 8] } clock 7 =
    ([("time".toList, 1, 6)], .ok { time := [0, 1, 2, 3, 4], data := [1, 3, 4, 5, 6] }) := by decide +kernel

end Verif.Reader
