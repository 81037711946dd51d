import Verif.Logger.Model

/-! # Properties C36 and C42: logging -/

namespace Verif.Logger

set_option linter.unusedSimpArgs false

/-! ## C36: single thread -/

/-- Specification: the level in force after a history: the last one set, ERROR if none was. -/
def levelAfter (h : List Call) : Level :=
  ((h.filterMap (fun | .setLevel l => some l | _ => none)).getLast?).getD .error

/-- Specification: the sinks registered after a history: those added since the last `clearSinks`, preceded by
the console when there was none. -/
def sinksAfter : List Call → List Nat → List Nat
  | [], acc => acc
  | .clearSinks :: h, _ => sinksAfter h []
  | .addSink s :: h, acc => sinksAfter h (acc ++ [s])
  | _ :: h, acc => sinksAfter h acc

/-- Specification: what a sink must have received: for every `log` call whose level is at least the level in
force at that moment, one copy per registration of the sink at that moment. -/
def mustReceive (s : Nat) (h : List Call) : List Entry :=
  (List.range h.length).flatMap (fun (i : Nat) =>
    match h[i]? with
    | some (.log e) =>
      if (levelAfter (h.take i)).rank ≤ e.level.rank then
        List.replicate ((sinksAfter (h.take i) [0]).count s) e
      else []
    | _ => [])

theorem sinksAfter_append (a b : List Call) : ∀ acc,
    sinksAfter (a ++ b) acc = sinksAfter b (sinksAfter a acc) := by
  induction a with
  | nil => intro acc; rfl
  | cons c a ih => intro acc; cases c <;> simp [sinksAfter, ih]

theorem run_append (h : List Call) (c : Call) : run (h ++ [c]) = step (run h) c := by
  simp [run]

theorem mustReceive_append (s : Nat) (h : List Call) (c : Call) :
    mustReceive s (h ++ [c]) = mustReceive s h ++ (match c with
      | .log e => if (levelAfter h).rank ≤ e.level.rank then
          List.replicate ((sinksAfter h [0]).count s) e else []
      | _ => []) := by
  unfold mustReceive
  rw [List.length_append, List.length_singleton, List.range_succ, List.flatMap_append]
  congr 1
  · have : ∀ i ∈ List.range h.length, (h ++ [c])[i]? = h[i]? ∧ (h ++ [c]).take i = h.take i := by
      intro i hi
      rw [List.mem_range] at hi
      exact ⟨List.getElem?_append_left hi, List.take_append_of_le_length (by omega)⟩
    rw [List.flatMap_def, List.flatMap_def]
    congr 1
    apply List.map_congr_left
    intro i hi
    rw [(this i hi).1, (this i hi).2]
  · simp only [List.flatMap_cons, List.flatMap_nil, List.append_nil]
    rw [List.getElem?_append_right (by omega)]
    simp only [Nat.sub_self, List.getElem?_cons_zero, List.take_left]
    cases c <;> rfl

theorem replicate_filter (s : Nat) (e : Entry) (l : List Nat) :
    ((l.map (fun s => (s, e))).filter (fun p => p.1 = s)).map Prod.snd = List.replicate (l.count s) e := by
  induction l with
  | nil => rfl
  | cons a l ih =>
    by_cases h : a = s
    · subst h; simp [List.replicate_succ] at ih ⊢; exact ih
    · simp [List.filter_cons, h, List.count_cons] at ih ⊢; exact ih

theorem run_spec (h : List Call) : (run h).level = levelAfter h ∧ (run h).sinks = sinksAfter h [0] ∧
    ∀ s, received (run h) s = mustReceive s h := by
  induction hn : h.length generalizing h with
  | zero =>
    have : h = [] := List.eq_nil_of_length_eq_zero hn
    subst this
    exact ⟨rfl, rfl, fun s => rfl⟩
  | succ n ih =>
    have hne : h ≠ [] := by intro h0; simp [h0] at hn
    obtain ⟨g, c, rfl⟩ : ∃ g c, h = g ++ [c] := ⟨h.dropLast, h.getLast hne, (List.dropLast_concat_getLast hne).symm⟩
    obtain ⟨h1, h2, h3⟩ := ih g (by simpa using hn)
    rw [run_append]
    refine ⟨?_, ?_, ?_⟩
    · cases c with
      | setLevel l => simp [step, levelAfter, List.filterMap_append]
      | addSink s => simpa [step, levelAfter, List.filterMap_append] using h1
      | clearSinks => simpa [step, levelAfter, List.filterMap_append] using h1
      | log e =>
        have : (step (run g) (.log e)).level = (run g).level := by
          simp only [step]; split <;> rfl
        rw [this]
        simpa [levelAfter, List.filterMap_append] using h1
    · rw [sinksAfter_append]
      cases c with
      | setLevel l => simpa [step, sinksAfter] using h2
      | addSink s => simp [step, sinksAfter, h2]
      | clearSinks => simp [step, sinksAfter]
      | log e =>
        have : (step (run g) (.log e)).sinks = (run g).sinks := by
          simp only [step]; split <;> rfl
        rw [this]
        simpa [sinksAfter] using h2
    · intro s
      rw [mustReceive_append, ← h3 s]
      cases c with
      | setLevel l => simp [step, received]
      | addSink s => simp [step, received]
      | clearSinks => simp [step, received]
      | log e =>
        simp only [step, h1, ← h2]
        by_cases hl : e.level.rank < (levelAfter g).rank
        · rw [if_pos hl, if_neg (by omega)]; simp
        · rw [if_neg hl, if_pos (by omega)]
          simp only [received, deliver, List.filter_append, List.map_append]
          rw [replicate_filter]

/-- **C36**: for every history every sink has received exactly the entries it must have received, in
order. -/
theorem log_exact (h : List Call) (s : Nat) : received (run h) s = mustReceive s h := (run_spec h).2.2 s

/-- **C36**: one message reaches the registered sinks in registration order. -/
theorem log_order (st : State) (e : Entry) (h : st.level.rank ≤ e.level.rank) :
    (step st (.log e)).out = st.out ++ st.sinks.map (fun s => (s, e)) := by
  simp only [step, if_neg (by omega : ¬ e.level.rank < st.level.rank), deliver]

example : received (run [.addSink 7, .log ⟨.info, "", "a"⟩, .setLevel .info, .log ⟨.info, "", "b"⟩,
    .clearSinks, .log ⟨.error, "", "c"⟩]) 7 = [⟨.info, "", "b"⟩] := by decide

/-- Disagreement: level OFF does not disable a message that is itself logged at level OFF. -/
theorem off_is_not_silent :
    received (run [.setLevel .off, .log ⟨.off, "", "x"⟩]) 0 = [⟨.off, "", "x"⟩] := by decide

/-! ## C42: several threads -/

/-- Specification: a single-threaded history that has the effect of a multi-threaded one, placing each
`log` call at the moment it writes. -/
def linearise : (Nat → Option Entry) → Level → List Atomic → List Call
  | _, _, [] => []
  | p, _, .setLevel l :: h => .setLevel l :: linearise p l h
  | p, l, .addSink s :: h => .addSink s :: linearise p l h
  | p, l, .clearSinks :: h => .clearSinks :: linearise p l h
  | p, l, .check t e :: h =>
    linearise (if e.level.rank < l.rank then p else fun u => if u = t then some e else p u) l h
  | p, l, .write t :: h => match p t with
    | none => linearise p l h
    | some e => .log e :: linearise (fun u => if u = t then none else p u) l h

/-- Specification: the level never rises above a pending message, i.e. no thread is overtaken by a
`setLevel` that would have filtered its message. -/
def NotOvertaken : (Nat → Option Entry) → Level → List Atomic → Prop
  | _, _, [] => True
  | p, _, .setLevel l :: h => (∀ t e, p t = some e → l.rank ≤ e.level.rank) ∧ NotOvertaken p l h
  | p, l, .addSink _ :: h => NotOvertaken p l h
  | p, l, .clearSinks :: h => NotOvertaken p l h
  | p, l, .check t e :: h =>
    NotOvertaken (if e.level.rank < l.rank then p else fun u => if u = t then some e else p u) l h
  | p, l, .write t :: h => match p t with
    | none => NotOvertaken p l h
    | some _ => NotOvertaken (fun u => if u = t then none else p u) l h

theorem linear_aux (h : List Atomic) : ∀ m : MState, (∀ t e, m.pending t = some e → m.st.level.rank ≤ e.level.rank) →
    NotOvertaken m.pending m.st.level h →
    (h.foldl mstep m).st = (linearise m.pending m.st.level h).foldl step m.st := by
  induction h with
  | nil => intro m _ _; rfl
  | cons a h ih =>
    intro m hp hn
    rw [List.foldl_cons]
    cases a with
    | setLevel l =>
      rw [ih _ (by simpa [mstep, step] using hn.1) (by simpa [mstep, step, NotOvertaken] using hn.2)]
      rfl
    | addSink s => rw [ih _ (by simpa [mstep, step] using hp) (by simpa [mstep, step, NotOvertaken] using hn)]; rfl
    | clearSinks => rw [ih _ (by simpa [mstep, step] using hp) (by simpa [mstep, step, NotOvertaken] using hn)]; rfl
    | check t e =>
      unfold NotOvertaken at hn
      unfold linearise
      by_cases hl : e.level.rank < m.st.level.rank
      · rw [if_pos hl] at hn ⊢
        have : mstep m (.check t e) = m := by simp [mstep, hl]
        rw [this]
        exact ih m hp hn
      · rw [if_neg hl] at hn ⊢
        have : mstep m (.check t e) = { m with pending := fun u => if u = t then some e else m.pending u } := by
          simp [mstep, hl]
        rw [this]
        refine ih _ ?_ hn
        intro u e' he'
        simp only at he'
        split at he'
        · cases he'; show m.st.level.rank ≤ _; omega
        · exact hp u e' he'
    | write t =>
      unfold NotOvertaken at hn
      unfold linearise
      cases hpt : m.pending t with
      | none =>
        simp only [hpt] at hn ⊢
        have : mstep m (.write t) = m := by simp [mstep, hpt]
        rw [this]
        exact ih m hp hn
      | some e =>
        simp only [hpt] at hn ⊢
        have hm : mstep m (.write t) = ⟨deliver m.st e, fun u => if u = t then none else m.pending u⟩ := by
          simp [mstep, hpt]
        rw [hm, List.foldl_cons]
        have hle := hp t e hpt
        have hs : step m.st (.log e) = deliver m.st e := by
          simp only [step, if_neg (by omega : ¬ e.level.rank < m.st.level.rank)]
        rw [hs]
        refine ih ⟨deliver m.st e, _⟩ ?_ hn
        intro u e' he'
        simp only at he'
        split at he'
        · cases he'
        · exact hp u e' he'

/-- **C42**, partial: every interleaving in which no message is overtaken by a raise of the level has the
effect of a single-threaded history with the same configuration calls in the same order, in which each
message that passed is logged exactly once, at the moment of its write. What is missing: a message overtaken
by `setLevel` (`overtaken_message_reaches_new_sink`). -/
theorem threads_linearisable_partial (h : List Atomic) (hn : NotOvertaken (fun _ => none) .error h) :
    (mrun h).st = run (linearise (fun _ => none) .error h) :=
  linear_aux h minit (by simp [minit]) hn

/-- **C42**: in every interleaving, overtaken or not, everything a sink received passed the comparison at
some moment: a `check` of that entry at a level not above it occurred. -/
theorem received_was_checked (h : List Atomic) (s : Nat) (e : Entry) (hr : e ∈ received (mrun h).st s) :
    ∃ a b t, h = a ++ .check t e :: b ∧ (mrun a).st.level.rank ≤ e.level.rank := by
  have key : ∀ h : List Atomic, (∀ p ∈ (mrun h).st.out, ∃ a b t, h = a ++ .check t p.2 :: b ∧
      (mrun a).st.level.rank ≤ p.2.level.rank) ∧
      ∀ u x, (mrun h).pending u = some x → ∃ a b t, h = a ++ .check t x :: b ∧
        (mrun a).st.level.rank ≤ x.level.rank := by
    intro h
    induction hn : h.length generalizing h with
    | zero =>
      have : h = [] := List.eq_nil_of_length_eq_zero hn
      subst this
      exact ⟨by simp [mrun, minit, init], by simp [mrun, minit]⟩
    | succ n ih =>
      have hne : h ≠ [] := by intro h0; simp [h0] at hn
      obtain ⟨g, c, rfl⟩ : ∃ g c, h = g ++ [c] :=
        ⟨h.dropLast, h.getLast hne, (List.dropLast_concat_getLast hne).symm⟩
      obtain ⟨i1, i2⟩ := ih g (by simpa using hn)
      have ext : ∀ x, (∃ a b t, g = a ++ .check t x :: b ∧ (mrun a).st.level.rank ≤ x.level.rank) →
          ∃ a b t, g ++ [c] = a ++ .check t x :: b ∧ (mrun a).st.level.rank ≤ x.level.rank := by
        rintro x ⟨a, b, t, rfl, hl⟩
        exact ⟨a, b ++ [c], t, by simp, hl⟩
      have hrun : mrun (g ++ [c]) = mstep (mrun g) c := by simp [mrun]
      rw [hrun]
      cases c with
      | setLevel l => exact ⟨fun p hp => ext _ (i1 p hp), fun u x hx => ext _ (i2 u x hx)⟩
      | addSink l => exact ⟨fun p hp => ext _ (i1 p hp), fun u x hx => ext _ (i2 u x hx)⟩
      | clearSinks => exact ⟨fun p hp => ext _ (i1 p hp), fun u x hx => ext _ (i2 u x hx)⟩
      | check t e =>
        by_cases hl : e.level.rank < (mrun g).st.level.rank
        · simp only [mstep, if_pos hl]
          exact ⟨fun p hp => ext _ (i1 p hp), fun u x hx => ext _ (i2 u x hx)⟩
        · simp only [mstep, if_neg hl]
          refine ⟨fun p hp => ext _ (i1 p hp), fun u x hx => ?_⟩
          split at hx
          · cases hx; exact ⟨g, [], t, rfl, by omega⟩
          · exact ext _ (i2 u x hx)
      | write t =>
        cases hpt : (mrun g).pending t with
        | none =>
          simp only [mstep, hpt]
          exact ⟨fun p hp => ext _ (i1 p hp), fun u x hx => ext _ (i2 u x hx)⟩
        | some e' =>
          simp only [mstep, hpt, deliver]
          refine ⟨fun p hp => ?_, fun u x hx => ?_⟩
          · rcases List.mem_append.mp hp with hp | hp
            · exact ext _ (i1 p hp)
            · obtain ⟨s', _, rfl⟩ := List.mem_map.mp hp
              exact ext _ (i2 t e' hpt)
          · split at hx
            · cases hx
            · exact ext _ (i2 u x hx)
  obtain ⟨p, hp, rfl⟩ := List.mem_map.mp hr
  exact (key h).1 p ((List.mem_filter.mp hp).1)

/-- A concrete interleaving meeting the hypothesis: two threads log at the same time, a sink is added in
between. -/
example : NotOvertaken (fun _ => none) .error
    [.check 1 ⟨.error, "", "a"⟩, .check 2 ⟨.critical, "", "b"⟩, .addSink 3, .write 2, .write 1] := by
  simp [NotOvertaken, Level.rank]

/-- Disagreement with **C42**: a sink registered only after the level was raised to OFF receives an ERROR
message, because another thread had compared the level before. No single-threaded history allows that. -/
theorem overtaken_message_reaches_new_sink :
    received (mrun [.check 1 ⟨.error, "", "late"⟩, .setLevel .off, .addSink 5, .write 1]).st 5
      = [⟨.error, "", "late"⟩] := by decide

end Verif.Logger
