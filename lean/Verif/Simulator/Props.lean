import Verif.Simulator.Model
import Mathlib.Algebra.Order.Field.Rat
import Mathlib.Data.List.Forall2

/-! # The simulation of a magnetic: specification and theorems -/

namespace Verif.Simulator

set_option linter.unusedSimpArgs false

variable {K S C W M R N : Type}

/-! ## Specification -/

/-- The calculation of winding losses leaves the other settings as they were. -/
def Quiet (P : Physics K S C W M R) : Prop := ∀ m p t s, (P.winding m p t s).2.rest = s.rest

/-- What the outputs `o` and the operating point `p'` that is answered are for an operating point `p`: the inductance is that of the operating
point; the leakage is that at the frequency of the first winding, for magnetics of several windings and unless a quick answer was asked for; the core
losses are those of the first winding with its flux density, at the ambient temperature, and the temperature that of the core in this ambient with
them; the winding losses are those of the operating point that is answered, at the ambient temperature and mirroring once. -/
structure Simulated (P : Physics K S C W M R) (m : M) (fast : Bool) (s : Settings R) (p p' : Point K S C) (o : Output K W) : Prop where
  conditions : p'.ambient = p.ambient ∧ p'.cooling = p.cooling
  inductance : ∃ (flux : S) (es : List (Exc K S)), P.inductance m p = .ok (o.inductance, flux, es) ∧
    ∃ (e : Exc K S) (l : K) (flux' : S) (es' : List (Exc K S)), es.head? = some e ∧ e.current ≠ none ∧
      P.inductance m { p with excitations := es } = .ok (l, flux', es') ∧
      p'.excitations.head? = some { e with flux := some flux' } ∧ p'.excitations.tail = es'.tail ∧
      P.core m { e with flux := some flux' } p.ambient = .ok o.core ∧
      (if fast = false ∧ P.windings m > 1 then ∃ k, o.leakage = some k ∧ P.leakage m e.frequency = .ok k else o.leakage = none)
  temperature : P.hottest m p.ambient o.core p.cooling = .ok o.temperature
  winding : (P.winding m p' p.ambient { s with mirroring := 1 }).1 = .ok o.winding

/-! ## Lemmas -/

theorem bind_ok {A B : Type} {r : Res A} {f : A → Res B} {b : B} (h : r.bind f = .ok b) : ∃ a, r = .ok a ∧ f a = .ok b := by
  cases r with
  | ok a => exact ⟨a, rfl, h⟩
  | throws | ub => all_goals simp [Res.bind] at h

theorem bind_ub {A B : Type} {r : Res A} {f : A → Res B} (h : r.bind f = .ub) : r = .ub ∨ ∃ a, r = .ok a ∧ f a = .ub := by
  cases r with
  | ok a => exact .inr ⟨a, rfl, h⟩
  | throws => simp [Res.bind] at h
  | ub => exact .inl rfl

theorem simulatePoint_mirroring (P : Physics K S C W M R) (m : M) (fast : Bool) (p : Point K S C) (s : Settings R) :
    (simulatePoint P m fast p s).2.mirroring = s.mirroring := by
  unfold simulatePoint
  cases beforeWinding P m fast p with
  | ok a => rfl
  | throws | ub => all_goals rfl

theorem simulatePoint_settings (P : Physics K S C W M R) (hq : Quiet P) (m : M) (fast : Bool) (p : Point K S C) (s : Settings R) :
    (simulatePoint P m fast p s).2 = s := by
  unfold simulatePoint
  cases beforeWinding P m fast p with
  | ok a =>
    simp only [windingAt]
    have := hq m a.2.2.2.2 ((some a.2.2.2.2.ambient).getD a.2.2.2.2.ambient) { s with mirroring := 1 }
    cases s
    simp only [Option.getD_some] at this
    simp [this]
  | throws | ub => all_goals rfl

theorem simulateAll_mirroring (P : Physics K S C W M R) (m : M) (fast : Bool) (ps : List (Point K S C)) (s : Settings R) :
    (simulateAll P m fast ps s).2.mirroring = s.mirroring := by
  induction ps generalizing s with
  | nil => rfl
  | cons p ps ih =>
    have h := simulatePoint_mirroring P m fast p s
    simp only [simulateAll]
    split
    · rename_i s' e; rw [e] at h; exact h
    · rename_i s' e; rw [e] at h; exact h
    · rename_i o s' e
      rw [e] at h
      exact (ih s').trans h

theorem simulateAll_settings (P : Physics K S C W M R) (hq : Quiet P) (m : M) (fast : Bool) (ps : List (Point K S C)) (s : Settings R) :
    (simulateAll P m fast ps s).2 = s := by
  induction ps with
  | nil => rfl
  | cons p ps ih =>
    have h := simulatePoint_settings P hq m fast p s
    simp only [simulateAll]
    split
    · rename_i s' e; rw [e] at h; exact h
    · rename_i s' e; rw [e] at h; exact h
    · rename_i o s' e
      rw [e] at h
      subst h
      exact ih

theorem simulateAll_cons (P : Physics K S C W M R) (hq : Quiet P) (m : M) (fast : Bool) (p : Point K S C) (ps : List (Point K S C))
    (s : Settings R) : (simulateAll P m fast (p :: ps) s).1 =
      (simulatePoint P m fast p s).1.bind fun o => (simulateAll P m fast ps s).1.bind fun os => .ok (o :: os) := by
  have h := simulatePoint_settings P hq m fast p s
  simp only [simulateAll]
  split
  · rename_i s' e; rw [e]; rfl
  · rename_i s' e; rw [e]; rfl
  · rename_i o s' e
    rw [e] at h ⊢
    subst h
    rfl

theorem simulateAll_forall (P : Physics K S C W M R) (hq : Quiet P) (m : M) (fast : Bool) (ps : List (Point K S C)) (s : Settings R)
    (r : List (Output K W × Point K S C)) :
    (simulateAll P m fast ps s).1 = .ok r ↔ List.Forall₂ (fun p o => (simulatePoint P m fast p s).1 = .ok o) ps r := by
  induction ps generalizing r with
  | nil => cases r <;> simp [simulateAll]
  | cons p ps ih =>
    rw [simulateAll_cons P hq]
    constructor
    · intro h
      obtain ⟨o, h1, h⟩ := bind_ok h
      obtain ⟨os, h2, h⟩ := bind_ok h
      simp only [Res.ok.injEq] at h
      subst h
      exact .cons h1 ((ih os).1 h2)
    · intro h
      cases h with
      | cons h1 h2 => rw [h1, Res.bind, (ih _).2 h2]; rfl

theorem simulatePoint_spec (P : Physics K S C W M R) (m : M) (fast : Bool) (s : Settings R) (p p' : Point K S C) (o : Output K W) :
    (simulatePoint P m fast p s).1 = .ok (o, p') → Simulated P m fast s p p' o := by
  intro h
  unfold simulatePoint at h
  cases hb : beforeWinding P m fast p with
  | throws => rw [hb] at h; simp at h
  | ub => rw [hb] at h; simp at h
  | ok a =>
    obtain ⟨l, k, losses, t, q⟩ := a
    rw [hb] at h
    simp only [windingAt, Option.getD_some] at h
    obtain ⟨w, hw, h⟩ := bind_ok h
    simp only [Res.ok.injEq, Prod.mk.injEq] at h
    obtain ⟨rfl, rfl⟩ := h
    unfold beforeWinding at hb
    obtain ⟨⟨l1, p1⟩, h1, hb⟩ := bind_ok hb
    obtain ⟨k1, h2, hb⟩ := bind_ok hb
    obtain ⟨⟨losses1, t1, p2⟩, h3, hb⟩ := bind_ok hb
    simp only [Res.ok.injEq, Prod.mk.injEq] at hb
    obtain ⟨rfl, rfl, rfl, rfl, rfl⟩ := hb
    unfold inductanceAt at h1
    obtain ⟨⟨l2, flux, es⟩, h1', e1⟩ := bind_ok h1
    clear h1
    simp only [Res.ok.injEq, Prod.mk.injEq] at e1
    obtain ⟨rfl, rfl⟩ := e1
    unfold coreAt at h3
    cases es with
    | nil => simp at h3
    | cons e others =>
      simp only at h3
      by_cases hc : e.current.isNone = true
      · rw [if_pos hc] at h3; simp at h3
      rw [if_neg hc] at h3
      obtain ⟨⟨l3, flux3, es3⟩, h4, h3⟩ := bind_ok h3
      cases es3 with
      | nil => simp at h3
      | cons e3 others3 =>
        simp only at h3
        obtain ⟨losses3, h5, h3⟩ := bind_ok h3
        obtain ⟨t3, h6, h3⟩ := bind_ok h3
        simp only [Res.ok.injEq, Prod.mk.injEq] at h3
        obtain ⟨rfl, rfl, rfl⟩ := h3
        refine ⟨⟨rfl, rfl⟩, ⟨flux, e :: others, h1', e, l3, flux3, e3 :: others3, rfl, ?_, h4, rfl, rfl, h5, ?_⟩, h6, hw⟩
        · intro h0; exact hc (by rw [h0]; rfl)
        · split
          · rename_i hf
            rw [if_pos hf] at h2
            obtain ⟨k2, h7, h2⟩ := bind_ok h2
            simp only [Res.ok.injEq] at h2
            exact ⟨k2, h2.symm, h7⟩
          · rename_i hf
            rw [if_neg hf] at h2
            simpa [eq_comm] using h2

theorem simulate_ok (P : Physics K S C W M R) (m : M) (fast : Bool) (points ps : List (Point K S C)) (os : List (Output K W))
    (s : Settings R) : (simulate P m fast points s).1 = .ok (ps, os) ↔
      (∀ p ∈ points, p.excitations.length = P.windings m) ∧
        ∃ r, (simulateAll P m fast points s).1 = .ok r ∧ ps = r.map Prod.snd ∧ os = r.map Prod.fst := by
  unfold simulate
  by_cases h : (points.any fun p => p.excitations.length ≠ P.windings m) = true
  · rw [if_pos h]
    simp only [List.any_eq_true, decide_eq_true_eq] at h
    obtain ⟨p, hp, hne⟩ := h
    constructor
    · intro h; simp at h
    · rintro ⟨hall, -⟩; exact absurd (hall p hp) (by simpa using hne)
  · rw [if_neg h]
    have hall : ∀ p ∈ points, p.excitations.length = P.windings m := by
      intro p hp
      by_contra hne
      exact h (List.any_eq_true.2 ⟨p, hp, by simpa using hne⟩)
    constructor
    · intro h
      obtain ⟨r, h1, h2⟩ := bind_ok h
      simp only [Res.ok.injEq, Prod.mk.injEq] at h2
      exact ⟨hall, r, h1, h2.1.symm, h2.2.symm⟩
    · rintro ⟨-, r, h1, rfl, rfl⟩
      simp only [h1, Res.bind]

/-! ## Theorems -/

/-- **C249.** A simulation answers if and only if it does for each operating point by itself, and then its answer has, in the order of the operating
points, the operating points and the outputs of each simulated alone. -/
theorem simulate_each (P : Physics K S C W M R) (hq : Quiet P) (m : M) (fast : Bool) (points ps : List (Point K S C))
    (os : List (Output K W)) (s : Settings R) : (simulate P m fast points s).1 = .ok (ps, os) ↔
      List.Forall₂ (fun p (r : Output K W × Point K S C) => (simulate P m fast [p] s).1 = .ok ([r.2], [r.1])) points (os.zip ps) ∧
        ps.length = os.length := by
  have one : ∀ p (r : Output K W × Point K S C), (simulate P m fast [p] s).1 = .ok ([r.2], [r.1]) ↔
      p.excitations.length = P.windings m ∧ (simulatePoint P m fast p s).1 = .ok r := by
    intro p r
    rw [simulate_ok]
    simp only [List.mem_singleton, forall_eq]
    refine and_congr_right fun _ => ?_
    constructor
    · rintro ⟨q, h1, h2, h3⟩
      have := (simulateAll_forall P hq m fast [p] s q).1 h1
      cases this with
      | cons h4 h5 =>
        cases h5
        rename_i b
        simp only [List.map_cons, List.map_nil, List.cons.injEq, and_true] at h2 h3
        rw [h4]
        obtain ⟨r1, r2⟩ := r
        simp only at h2 h3
        rw [h2, h3]
    · intro h
      exact ⟨[r], (simulateAll_forall P hq m fast [p] s [r]).2 (.cons h .nil), rfl, rfl⟩
  rw [simulate_ok]
  constructor
  · rintro ⟨hall, r, h1, rfl, rfl⟩
    refine ⟨?_, by simp⟩
    have hz : (r.map Prod.fst).zip (r.map Prod.snd) = r := by
      rw [List.zip_map']
      simp
    rw [hz]
    have h2 := (simulateAll_forall P hq m fast points s r).1 h1
    clear h1 hz
    induction h2 with
    | nil => exact .nil
    | cons h3 _ ih =>
      exact .cons ((one _ _).2 ⟨hall _ List.mem_cons_self, h3⟩) (ih fun p hp => hall p (List.mem_cons_of_mem _ hp))
  · rintro ⟨h, hl⟩
    have h' := h.imp fun p r hr => (one p r).1 hr
    refine ⟨?_, os.zip ps, ?_, ?_, ?_⟩
    · clear h hl
      revert h'
      generalize os.zip ps = z
      intro h'
      induction h' with
      | nil => simp
      | cons h3 _ ih =>
        intro p hp
        rcases List.mem_cons.1 hp with rfl | hp
        · exact h3.1
        · exact ih p hp
    · exact (simulateAll_forall P hq m fast points s _).2 (h'.imp fun _ _ hr => hr.2)
    · exact (List.map_snd_zip (by omega)).symm
    · exact (List.map_fst_zip (by omega)).symm

/-- **C249.** What the outputs of an operating point are. -/
theorem simulated_outputs (P : Physics K S C W M R) (m : M) (fast : Bool) (p p' : Point K S C) (o : Output K W) (s : Settings R)
    (h : (simulate P m fast [p] s).1 = .ok ([p'], [o])) : Simulated P m fast s p p' o := by
  obtain ⟨-, r, h1, h2, h3⟩ := (simulate_ok P m fast [p] [p'] [o] s).1 h
  simp only [simulateAll] at h1
  split at h1
  · simp at h1
  · simp at h1
  · rename_i o' s' e
    simp only [Res.bind, Res.ok.injEq] at h1
    subst h1
    simp only [List.map_cons, List.map_nil, List.cons.injEq, and_true] at h2 h3
    subst h2 h3
    exact simulatePoint_spec P m fast s p o'.2 o'.1 (by rw [e])

/-- **C249.** An operating point that does not have one excitation for each winding is refused, whatever the others, before anything is calculated. -/
theorem miscounted_refused (P : Physics K S C W M R) (m : M) (fast : Bool) (points : List (Point K S C)) (s : Settings R)
    (p : Point K S C) (hp : p ∈ points) (h : p.excitations.length ≠ P.windings m) : simulate P m fast points s = (.throws, s) := by
  unfold simulate
  rw [if_pos (List.any_eq_true.2 ⟨p, hp, by simpa using h⟩)]

theorem beforeWinding_fast (P : Physics K S C W M R) (m : M) (p p' : Point K S C) (l losses t : K) (k : Option (List K))
    (h : beforeWinding P m false p = .ok (l, k, losses, t, p')) : beforeWinding P m true p = .ok (l, none, losses, t, p') := by
  unfold beforeWinding at h ⊢
  obtain ⟨⟨l1, p1⟩, h1, h⟩ := bind_ok h
  obtain ⟨k1, -, h⟩ := bind_ok h
  obtain ⟨⟨losses1, t1, p2⟩, h3, h⟩ := bind_ok h
  simp only [Res.ok.injEq, Prod.mk.injEq] at h
  obtain ⟨rfl, rfl, rfl, rfl, rfl⟩ := h
  rw [h1]
  simp [Res.bind, h3]

/-- **C249.** A quick simulation answers what a full one does, but for the leakage inductance. -/
theorem fast_same (P : Physics K S C W M R) (hq : Quiet P) (m : M) (points ps : List (Point K S C)) (os : List (Output K W))
    (s : Settings R) (h : (simulate P m false points s).1 = .ok (ps, os)) :
    (simulate P m true points s).1 = .ok (ps, os.map fun o => { o with leakage := none }) := by
  obtain ⟨hall, r, h1, rfl, rfl⟩ := (simulate_ok P m false points ps os s).1 h
  refine (simulate_ok P m true points _ _ s).2 ⟨hall, r.map fun q => ({ q.1 with leakage := none }, q.2), ?_, by simp, by simp⟩
  refine (simulateAll_forall P hq m true points s _).2 ?_
  have h2 := (simulateAll_forall P hq m false points s r).1 h1
  rw [List.forall₂_map_right_iff]
  refine h2.imp fun p q hp => ?_
  unfold simulatePoint at hp ⊢
  cases hb : beforeWinding P m false p with
  | throws => rw [hb] at hp; simp at hp
  | ub => rw [hb] at hp; simp at hp
  | ok a =>
    obtain ⟨l, k, losses, t, q'⟩ := a
    rw [beforeWinding_fast P m p q' l losses t k hb]
    rw [hb] at hp
    simp only at hp ⊢
    obtain ⟨w, hw, hp⟩ := bind_ok hp
    simp only [Res.ok.injEq] at hp
    subst hp
    rw [hw]
    rfl

/-- **C249.** There is no undefined behaviour in a simulation of a magnetic with windings, if there is none in what it calculates and the calculation
of the inductance leaves as many excitations as it gets. -/
theorem simulate_defined (P : Physics K S C W M R) (m : M) (fast : Bool) (points : List (Point K S C)) (s : Settings R)
    (hw : 0 < P.windings m) (h1 : ∀ p, P.inductance m p ≠ .ub) (h2 : ∀ f, P.leakage m f ≠ .ub) (h3 : ∀ e t, P.core m e t ≠ .ub)
    (h4 : ∀ t l c, P.hottest m t l c ≠ .ub) (h5 : ∀ p t s, (P.winding m p t s).1 ≠ .ub)
    (hn : ∀ p l f es, P.inductance m p = .ok (l, f, es) → es.length = p.excitations.length) :
    (simulate P m fast points s).1 ≠ .ub := by
  have hc : ∀ p : Point K S C, 0 < p.excitations.length → coreAt P m p ≠ .ub := by
    intro p hp h
    unfold coreAt at h
    cases hx : p.excitations with
    | nil => rw [hx] at hp; simp at hp
    | cons e others =>
      rw [hx] at h
      simp only at h
      by_cases hcur : e.current.isNone = true
      · rw [if_pos hcur] at h; simp at h
      rw [if_neg hcur] at h
      rcases bind_ub h with h | ⟨⟨l', f', es'⟩, e2, h⟩
      · exact h1 _ h
      have hl' := hn _ l' f' es' e2
      cases es' with
      | nil => rw [hx] at hl'; simp at hl'
      | cons e' others' =>
        simp only at h
        rcases bind_ub h with h | ⟨losses, -, h⟩
        · exact h3 _ _ h
        rcases bind_ub h with h | ⟨t, -, h⟩
        · exact h4 _ _ _ h
        simp at h
  have hb : ∀ p : Point K S C, 0 < p.excitations.length → beforeWinding P m fast p ≠ .ub := by
    intro p hp h
    unfold beforeWinding inductanceAt at h
    rcases bind_ub h with h | ⟨⟨l, q⟩, e1, h⟩
    · rcases bind_ub h with h | ⟨a, -, h⟩
      · exact h1 _ h
      · simp at h
    obtain ⟨⟨l', f, es⟩, e2, e3⟩ := bind_ok e1
    simp only [Res.ok.injEq, Prod.mk.injEq] at e3
    obtain ⟨-, rfl⟩ := e3
    have hl := hn _ _ _ _ e2
    simp only at h
    rcases bind_ub h with h | ⟨k, -, h⟩
    · split at h
      · rcases bind_ub h with h | ⟨a, -, h⟩
        · unfold leakageAt at h
          simp only at h
          split at h
          · simp at hl; omega
          · exact h2 _ h
        · simp at h
      · simp at h
    rcases bind_ub h with h | ⟨a, -, h⟩
    · exact hc _ (by simpa [hl] using hp) h
    · simp at h
  have hp : ∀ (p : Point K S C) (s : Settings R), 0 < p.excitations.length → (simulatePoint P m fast p s).1 ≠ .ub := by
    intro p s hp h
    unfold simulatePoint at h
    cases e : beforeWinding P m fast p with
    | ub => exact hb p hp e
    | throws => rw [e] at h; simp at h
    | ok a =>
      obtain ⟨l, k, losses, t, q⟩ := a
      rw [e] at h
      simp only [windingAt] at h
      cases e5 : (P.winding m q ((some q.ambient).getD q.ambient) { s with mirroring := 1 }).1 with
      | ub => exact h5 _ _ _ e5
      | throws => rw [e5] at h; simp [Res.bind] at h
      | ok w => rw [e5] at h; simp [Res.bind] at h
  have ha : ∀ (ps : List (Point K S C)) (s : Settings R), (∀ p ∈ ps, 0 < p.excitations.length) → (simulateAll P m fast ps s).1 ≠ .ub := by
    intro ps
    induction ps with
    | nil => intro s _ h; simp [simulateAll] at h
    | cons p ps ih =>
      intro s hall h
      have h0 := hp p s (hall p List.mem_cons_self)
      simp only [simulateAll] at h
      split at h
      · simp at h
      · rename_i s' e; rw [e] at h0; exact h0 rfl
      · rename_i o s' e
        have := ih s' fun q hq => hall q (List.mem_cons_of_mem _ hq)
        cases e6 : (simulateAll P m fast ps s').1 with
        | ub => exact this e6
        | throws => simp only [e6, Res.bind] at h; cases h
        | ok os => simp only [e6, Res.bind] at h; cases h
  unfold simulate
  by_cases hany : (points.any fun p => p.excitations.length ≠ P.windings m) = true
  · rw [if_pos hany]; simp
  · rw [if_neg hany]
    intro h
    have := ha points s fun p hpm => by
      by_contra h0
      exact hany (List.any_eq_true.2 ⟨p, hpm, by simp; omega⟩)
    cases e6 : (simulateAll P m fast points s).1 with
    | ub => exact this e6
    | throws => simp only [e6, Res.bind] at h; cases h
    | ok os => simp only [e6, Res.bind] at h; cases h

/-- **C250.** A simulation answers each operating point with the ambient temperature and the cooling it had. -/
theorem conditions_kept (P : Physics K S C W M R) (hq : Quiet P) (m : M) (fast : Bool) (points ps : List (Point K S C))
    (os : List (Output K W)) (s : Settings R) (h : (simulate P m fast points s).1 = .ok (ps, os)) :
    List.Forall₂ (fun p p' : Point K S C => p'.ambient = p.ambient ∧ p'.cooling = p.cooling) points ps := by
  obtain ⟨-, r, h1, rfl, -⟩ := (simulate_ok P m fast points ps os s).1 h
  rw [List.forall₂_map_right_iff]
  exact ((simulateAll_forall P hq m fast points s r).1 h1).imp fun p q hp => (simulatePoint_spec P m fast s p q.2 q.1 hp).conditions

/-- **C250.** If the calculation of the inductance keeps something of the excitations that the flux density is no part of, like their frequencies, so
does a simulation. -/
theorem excitations_kept {A : Type} (view : Exc K S → A) (hv : ∀ e f, view { e with flux := f } = view e)
    (P : Physics K S C W M R) (hq : Quiet P) (m : M)
    (hk : ∀ p l f es, P.inductance m p = .ok (l, f, es) → es.map view = p.excitations.map view)
    (fast : Bool) (points ps : List (Point K S C)) (os : List (Output K W)) (s : Settings R)
    (h : (simulate P m fast points s).1 = .ok (ps, os)) :
    ps.map (fun p => p.excitations.map view) = points.map fun p => p.excitations.map view := by
  obtain ⟨-, r, h1, rfl, -⟩ := (simulate_ok P m fast points ps os s).1 h
  have h2 := (simulateAll_forall P hq m fast points s r).1 h1
  clear h h1
  induction h2 with
  | nil => rfl
  | @cons p q ps' qs' h3 _ ih =>
    simp only [List.map_cons, List.cons.injEq]
    refine ⟨?_, ih⟩
    obtain ⟨flux, es, i1, e, l, flux', es', i2, -, i3, i4, i5, -⟩ := (simulatePoint_spec P m fast s p q.2 q.1 h3).inductance
    have k1 := hk _ _ _ _ i1
    have k2 := hk _ _ _ _ i3
    simp only at k2
    rw [← k1, ← k2]
    cases es with
    | nil => simp at i2
    | cons e1 others =>
      simp only [List.head?_cons, Option.some.injEq] at i2
      subst i2
      cases es' with
      | nil => simp at k2
      | cons e2 others' =>
        cases hx : q.2.excitations with
        | nil => rw [hx] at i4; simp at i4
        | cons e3 others3 =>
          rw [hx] at i4 i5
          simp only [List.head?_cons, Option.some.injEq, List.tail_cons] at i4 i5
          subst i4 i5
          simp only [List.map_cons, List.cons.injEq] at k2 ⊢
          exact ⟨by rw [hv, k2.1], trivial⟩

/-- **C250.** A simulation puts the dimension of the mirroring back, however it ends and whatever is done to it, and the other settings are left as they
were if the calculation of the winding losses leaves them. -/
theorem settings_kept (P : Physics K S C W M R) (m : M) (fast : Bool) (points : List (Point K S C)) (s : Settings R) :
    (simulate P m fast points s).2.mirroring = s.mirroring ∧ (Quiet P → (simulate P m fast points s).2 = s) := by
  unfold simulate
  split
  · exact ⟨rfl, fun _ => rfl⟩
  · exact ⟨simulateAll_mirroring P m fast points s, fun hq => simulateAll_settings P hq m fast points s⟩

/-- **C251.** A simulator calculates inductances with the reluctance model of the settings at the time it was made, if no other is asked for. -/
theorem reluctance_of_settings_partial (physics : N → Physics K S C W M R) (n : N) (m : M) (fast : Bool) (points : List (Point K S C))
    (s : Settings R) : run physics (construct n) m fast points s = simulate (physics n) m fast points s := rfl

/-- **C251.** Asking a simulator for a reluctance model changes nothing in what it answers. -/
theorem reluctance_ignored (physics : N → Physics K S C W M R) (n : N) (x : Simulator N) (m : M) (fast : Bool)
    (points : List (Point K S C)) (s : Settings R) :
    run physics (setReluctance n x) m fast points s = run physics x m fast points s := rfl

/-! ## A case -/

/-- Signals are numbers, inductances are the name of the reluctance model, and winding losses leave the mirroring changed. -/
def physics (n : ℕ) : Physics ℚ ℚ Unit ℚ ℕ ℕ where
  windings := fun m => m
  inductance := fun _ p => match p.excitations with
    | [] => .ub
    | e :: others => match e.current with
      | none => .throws
      | some c => .ok (n, c / n, { e with magnetizing := some c } :: others)
  leakage := fun m f => .ok (List.replicate m f)
  core := fun _ e t => .ok (e.flux.getD 0 * t)
  hottest := fun _ t l _ => .ok (t + l)
  winding := fun _ p t s => if p.excitations.all (fun e => e.current.isSome) then (.ok (t * s.mirroring), { s with mirroring := 3 })
    else (.throws, { s with mirroring := 4 })

theorem physics_quiet (n : ℕ) : Quiet (physics n) := by
  intro m p t s
  simp only [physics]
  split <;> rfl

/-- Two windings at 25 degrees. -/
def warm : Point ℚ ℚ Unit := ⟨25, (), [⟨1000, some 6, none, none, none⟩, ⟨1000, some 1, none, none, none⟩]⟩
/-- The second winding has no current. -/
def lacking : Point ℚ ℚ Unit := ⟨30, (), [⟨1000, some 6, none, none, none⟩, ⟨1000, none, none, none, none⟩]⟩

/-- **C251.** A simulator that was asked for another reluctance model than that of the settings does not answer what one made under settings with that
model does. -/
theorem reluctance_witness : (run physics (setReluctance 3 (construct 2)) 2 false [warm] ⟨2, 7⟩).1 ≠
    (run physics (construct 3) 2 false [warm] ⟨2, 7⟩).1 := by decide +kernel

example : simulate (physics 2) 2 false [warm, { warm with ambient := 40 }] ⟨2, 7⟩ =
    (.ok ([⟨25, (), [⟨1000, some 6, none, some 6, some 3⟩, ⟨1000, some 1, none, none, none⟩]⟩,
        ⟨40, (), [⟨1000, some 6, none, some 6, some 3⟩, ⟨1000, some 1, none, none, none⟩]⟩],
      [⟨2, some [1000, 1000], 75, 100, 25⟩, ⟨2, some [1000, 1000], 120, 160, 40⟩]), ⟨2, 7⟩) := by decide +kernel

example : simulate (physics 2) 2 false [warm, lacking] ⟨2, 7⟩ = (.throws, ⟨2, 7⟩) ∧
    simulate (physics 2) 3 false [warm] ⟨2, 7⟩ = (.throws, ⟨2, 7⟩) :=
  ⟨by decide +kernel, by decide +kernel⟩

end Verif.Simulator
