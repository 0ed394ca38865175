import Mathlib.Analysis.SpecialFunctions.Sqrt
import Verif.Props.Feeding
import Verif.Props.Systems
import Verif.Model.Supplies

/-!
# C107: simulated episodes approach the motion of the drive
-/

set_option linter.unusedSectionVars false

namespace GEM.Props

open GEM GEM.Conv GEM.Motor GEM.Load GEM.Sys GEM.Spec GEM.Solver Set Filter Topology

noncomputable section

variable {E G : Type*} [NormedAddCommGroup E] [NormedSpace ℝ E] [NormedAddCommGroup G] [NormedSpace ℝ G]

/-- The state of the solver after `n` steps of an episode that begins with a reset to the state `y`. -/
def episode {Y U A C P E : Type} (p : Parts ℝ Y U A (Euler ℝ E) C P) (f : Frame ℝ Y U A)
    (rep : Y → List ℝ → List ℝ → Except Err (List ℝ)) (d : ℝ) (limits : List ℝ) (y : Y) (as : ℕ → A)
    (st : St ℝ (Euler ℝ E) C P) (n : ℕ) : E :=
  (simulates p f d limits (reset p rep limits st y).1 ((List.range n).map as)).solver.y

/-- states before an episode: whatever the time and the solver, with a converter and a supply of certain kinds -/
def Before (E C P : Type) (okC : C → Prop) (okP : P → Prop) : Type := { st : St ℝ (Euler ℝ E) C P // okC st.conv ∧ okP st.supply }

/-- The stages of a step of length `d` that begin at the times `o` and `os`: during a stage the motor is fed with the output `w` of the
converter times the supply voltage, for the state at the beginning of the stage.  `inp` computes the input of the motor from the
voltages, `up` the supply voltage of the step. -/
def stages {E U : Type} {n : ℕ} (inp : E → (Fin n → ℝ) → U) (w : ℝ → E → Fin n → ℝ) (steady : ℝ → E → Prop) (d : ℝ) :
    (E → ℝ → ℝ) → ℝ → List ℝ → List (Stage E U)
  | up, o, [] => [⟨d - o, up, fun x z => inp x fun j => w o x j * z, steady o⟩]
  | up, o, o' :: os => ⟨o' - o, up, fun x z => inp x fun j => w o x j * z, steady o⟩ :: stages inp w steady d (fun _ z => z) o' os

theorem stages_span {E U : Type} [NormedAddCommGroup E] [NormedSpace ℝ E] {n : ℕ} (inp : E → (Fin n → ℝ) → U) (w : ℝ → E → Fin n → ℝ) (steady : ℝ → E → Prop) (d : ℝ)
    (os : List ℝ) : ∀ up o, span (stages inp w steady d up o os) = d - o := by
  induction os with
  | nil => intro up o; simp [stages, span]
  | cons o' os ih =>
    intro up o
    simp only [stages]
    rw [span_cons, ih]
    simp only
    ring

theorem stages_nonneg {E U : Type} {n : ℕ} (inp : E → (Fin n → ℝ) → U) (w : ℝ → E → Fin n → ℝ) (steady : ℝ → E → Prop) (d : ℝ)
    (os : List ℝ) : ∀ up o, (o :: os).Pairwise (· ≤ ·) → (∀ o' ∈ o :: os, o' ≤ d) → ∀ p ∈ stages inp w steady d up o os, 0 ≤ p.h := by
  induction os with
  | nil =>
    intro up o _ h p hp
    simp only [stages, List.mem_singleton] at hp
    rw [hp]
    simpa using h o (by simp)
  | cons o' os ih =>
    intro up o hs h p hp
    simp only [stages, List.mem_cons] at hp
    rcases hp with rfl | hp
    · simp only
      have := (List.pairwise_cons.1 hs).1 o' (by simp)
      linarith
    · exact ih _ _ (List.pairwise_cons.1 hs).2 (fun o'' ho => h o'' (by simp [List.mem_cons.1 ho])) p hp

theorem lipBdd_id : LipBdd fun v : ℝ => v := fun _ => ⟨1, zero_le_one, fun x y _ _ => by rw [one_mul]⟩

theorem lipBdd_snd : LipBdd fun q : E × G => q.2 := fun _ =>
  ⟨1, zero_le_one, fun x y _ _ => by rw [one_mul]; exact norm_snd_le (x - y)⟩

/-- every stage is smooth where it claims to be -/
theorem stages_smooth {E U : Type} [NormedAddCommGroup E] [NormedSpace ℝ E] [NormedAddCommGroup U] [NormedSpace ℝ U] {n : ℕ}
    {inp : E → (Fin n → ℝ) → U} {w : ℝ → E → Fin n → ℝ} {steady : ℝ → E → Prop} {d : ℝ}
    (hw : ∀ o x z, steady o x → LipAt (fun q : E × ℝ => inp q.1 fun j => w o q.1 j * q.2) (x, z)) (os : List ℝ) :
    ∀ (up : E → ℝ → ℝ) (o : ℝ), (∀ x z, steady o x → LipAt (fun q : E × ℝ => up q.1 q.2) (x, z)) →
      ∀ p ∈ stages inp w steady d up o os, ∀ x z, p.steady x → SmoothAt p x z := by
  induction os with
  | nil =>
    intro up o hup p hp x z h
    simp only [stages, List.mem_singleton] at hp
    subst hp
    exact ⟨hup x z h, hw o x _ h⟩
  | cons o' os ih =>
    intro up o hup p hp x z h
    simp only [stages, List.mem_cons] at hp
    rcases hp with rfl | hp
    · exact ⟨hup x z h, hw o x _ h⟩
    · exact ih _ _ (fun x z _ => lipAt_snd (x, z)) p hp x z h

/-- Components of a physical system: Euler solver with the system equation (any scratch arrays), converter, and supply.  `toY` and `ofY`
tell how the state of the solver consists of the states of load and motor. -/
def eulerParts {m : ℕ} {Y U A C P : Type} (pw : Power A C) (src : Source P) (load : AnyLoad) (torque : (Fin m → ℝ) → ℝ)
    (ode : (Fin m → ℝ) → U → ℝ → Fin m → ℝ) (scratch : Option (Fin (1 + m) → ℝ)) (toY : (Fin (1 + m) → ℝ) → Y)
    (ofY : Y → Fin (1 + m) → ℝ) : Parts ℝ Y U A (Euler ℝ (Fin (1 + m) → ℝ)) C P where
  solverT s := s.t
  solverY s := toY s.y
  integrate s u t := (s.integrate (drive torque ode load scratch u) t).1
  setInitial s y t := s.setInitialValue (ofY y) t
  setAction := pw.setAction
  convert := pw.convert
  iSup := pw.iSup
  convReset := pw.reset
  getVoltage := src.getVoltage
  supplyReset := src.reset

theorem products_ofFn {n : ℕ} (w : Fin n → ℝ) (v : ℝ) : products (List.ofFn w) [v] = List.ofFn fun k => w k * v := by
  unfold products
  simp only [List.ofFn_eq_map, List.flatMap_map, List.map_cons, List.map_nil]
  rw [List.map_eq_flatMap]

section simulation

variable {m n l : ℕ} {Y U A C D P : Type} {pw : Power A C} {src : Source P} {torque : (Fin m → ℝ) → ℝ}
  {elOde : (Fin m → ℝ) → (Fin l → ℝ) → ℝ → Fin m → ℝ} {ode : (Fin m → ℝ) → U → ℝ → Fin m → ℝ} {vec : U → Fin l → ℝ} {load : AnyLoad}
  {scratch : Option (Fin (1 + m) → ℝ)} {toY : (Fin (1 + m) → ℝ) → Y} {ofY : Y → Fin (1 + m) → ℝ} {f : Frame ℝ Y U A}
  {curr : (Fin (1 + m) → ℝ) → Fin n → ℝ} {inp : (Fin (1 + m) → ℝ) → (Fin n → ℝ) → Fin l → ℝ}

/-- one stage -/
theorem piece_stage (hode : ∀ x u w, ode x u w = elOde x (vec u) w) (hst : load.Static) (hcur : ∀ x, f.iIn (toY x) = List.ofFn (curr x))
    {toU : Y → List ℝ → Except Err U} (hU : ∀ x w, ∃ v, toU (toY x) (List.ofFn w) = .ok v ∧ vec v = inp x w)
    {st : St ℝ (Euler ℝ (Fin (1 + m) → ℝ)) C P} {i' : ℝ} (hi : pw.iSup st.conv (List.ofFn (curr st.solver.y)) = .ok i') {p' : P} {z : ℝ}
    (hz : src.getVoltage st.supply st.t i' = (p', [z])) {c' : C} {w : Fin n → ℝ}
    (hc : pw.convert st.conv (List.ofFn (curr st.solver.y)) st.solver.t = (c', .ok (List.ofFn w))) (tEnd : ℝ) :
    ∃ r, piece (eulerParts pw src load torque ode scratch toY ofY) f toU st tEnd
      = (⟨st.t, st.k, (st.solver.integrate (fun _ x => core torque elOde load (inp st.solver.y fun j => w j * z) x) tEnd).1, c', p'⟩,
        .ok r) := by
  obtain ⟨v, hv, hvec⟩ := hU st.solver.y fun j => w j * z
  have ey : (eulerParts pw src load torque ode scratch toY ofY).solverY st.solver = toY st.solver.y := rfl
  have et : (eulerParts pw src load torque ode scratch toY ofY).solverT st.solver = st.solver.t := rfl
  have econv : (eulerParts pw src load torque ode scratch toY ofY).convert = pw.convert := rfl
  have esup : (eulerParts pw src load torque ode scratch toY ofY).iSup = pw.iSup := rfl
  have evol : (eulerParts pw src load torque ode scratch toY ofY).getVoltage = src.getVoltage := rfl
  have eint : ∀ s u t, (eulerParts pw src load torque ode scratch toY ofY).integrate s u t
      = (s.integrate (drive torque ode load scratch u) t).1 := fun _ _ _ => rfl
  have ecore : (fun (_ : ℝ) x => core torque ode load v x) = fun _ x => core torque elOde load (inp st.solver.y fun j => w j * z) x := by
    funext t x
    simp only [core, hode, hvec]
  refine ⟨(List.ofFn fun j => w j * z, [z]), ?_⟩
  unfold piece
  simp only [ey, et, hcur, esup, hi, evol, hz, econv, hc, products_ofFn, hv, eint]
  rw [drive_static torque ode hst, ecore]

variable {M : Machine D A n} {legal : A → Prop} {holds : C → D → Prop} {during : C → D → A → ℝ → Prop} {after : P → ℕ → ℝ → Prop} {d : ℝ}

/-- the stages of a step, from any of them on -/
theorem pieces_stages (hode : ∀ x u w, ode x u w = elOde x (vec u) w) (hst : load.Static)
    (hcur : ∀ x, f.iIn (toY x) = List.ofFn (curr x)) (hU : ∀ x w, ∃ v, f.lastU (toY x) (List.ofFn w) = .ok v ∧ vec v = inp x w)
    (hduring : ∀ c δ a t, legal a → during c δ a t → ∀ i : Fin n → ℝ, (∃ w, pw.iSup c (List.ofFn i) = .ok w) ∧
      ∀ o, ∃ c', pw.convert c (List.ofFn i) (t + o) = (c', .ok (List.ofFn (M.out δ a o i))) ∧ during c' δ a t ∧
        holds c' (M.next δ a o))
    (hafter : ∀ p (k : ℕ) z i, after p k z → ∃ p', src.getVoltage p (k * d) i = (p', [z]) ∧ after p' k z) (limits : List ℝ)
    {δ : D} {a : A} (ha : legal a) (k : ℕ) (w : ℝ → (Fin (1 + m) → ℝ) → Fin n → ℝ) (steady : ℝ → (Fin (1 + m) → ℝ) → Prop) (os : List ℝ)
    (hloop : os ≠ [] → ∀ x w, ∃ v, f.loopU (toY x) (List.ofFn w) = .ok v ∧ vec v = inp x w)
    (hw : os ≠ [] → ∀ o x, M.out δ a o (curr x) = w o x) :
    ∀ (up : (Fin (1 + m) → ℝ) → ℝ → ℝ) (o z : ℝ) (st : St ℝ (Euler ℝ (Fin (1 + m) → ℝ)) C P), during st.conv δ a (k * d) → st.t = k * d →
      st.solver.t = k * d + o → 1 ≤ st.solver.nsteps → M.out δ a o (curr st.solver.y) = w o st.solver.y →
      (∃ i', pw.iSup st.conv (List.ofFn (curr st.solver.y)) = .ok i' ∧
        ∃ p', src.getVoltage st.supply (k * d) i' = (p', [up st.solver.y z]) ∧ after p' k (up st.solver.y z)) →
      let p := eulerParts pw src load torque ode scratch toY ofY
      let F := fun x u => core torque elOde load u x
      let r := Call.bind (pieces p f (os.map (k * d + ·)) st) (fun st _ =>
        let y := p.solverY st.solver
        Call.bind (piece p f f.lastU st (st.t + d)) (fun st uv =>
          let st := { st with t := p.solverT st.solver, k := st.k + 1 }
          (st, (f.report y (p.solverY st.solver) uv.1 uv.2).bind (fun s => divLimits s limits))))
      r.1.t = r.1.solver.t ∧ r.1.solver = (stagesEuler F st.solver z (stages inp w steady d up o os)).1 ∧
      after r.1.supply k (stagesEuler F st.solver z (stages inp w steady d up o os)).2 ∧
      holds r.1.conv (M.next δ a (os.getLastD o)) := by
  induction os with
  | nil =>
    intro up o z st hdur ht hts hn hout ⟨i', hi, p', hp', hafter'⟩
    obtain ⟨-, hconv⟩ := hduring _ _ _ _ ha hdur (curr st.solver.y)
    obtain ⟨c', hc, hdur', hh⟩ := hconv o
    obtain ⟨r, hr⟩ := piece_stage (torque := torque) (scratch := scratch) (ofY := ofY) hode hst hcur hU hi (by rw [ht]; exact hp')
      (by rw [hts]; exact hc) (st.t + d)
    simp only [List.map_nil, pieces, Call.bind, hr, stages, stagesEuler, List.getLastD_nil]
    refine ⟨rfl, ?_, hafter', hh⟩
    have e1 : st.t + d = st.solver.t + (d - o) := by rw [ht, hts]; ring
    rw [e1, hout]
  | cons o' os ih =>
    intro up o z st hdur ht hts hn hout ⟨i', hi, p', hp', hafter'⟩
    obtain ⟨-, hconv⟩ := hduring _ _ _ _ ha hdur (curr st.solver.y)
    obtain ⟨c', hc, hdur', hh⟩ := hconv o
    obtain ⟨r, hr⟩ := piece_stage (torque := torque) (scratch := scratch) (ofY := ofY) hode hst hcur (hloop (by simp)) hi
      (by rw [ht]; exact hp') (by rw [hts]; exact hc) (k * d + o')
    have e1 : k * d + o' = st.solver.t + (o' - o) := by rw [hts]; ring
    obtain ⟨t1, t2⟩ := integrate_time
      (fun x => core torque elOde load (inp st.solver.y fun j => M.out δ a o (curr st.solver.y) j * up st.solver.y z) x) st.solver hn
      (k * d + o')
    have h := ih (fun _ => hloop (by simp)) (fun _ => hw (by simp)) (fun _ z => z) o' (up st.solver.y z)
      ⟨st.t, st.k, (st.solver.integrate (fun _ x => core torque elOde load
        (inp st.solver.y fun j => M.out δ a o (curr st.solver.y) j * up st.solver.y z) x) (k * d + o')).1, c', p'⟩
      hdur' ht t1 (by rw [t2]; exact hn) (hw (by simp) _ _) (by
        obtain ⟨⟨i'', hi''⟩, -⟩ := hduring _ _ _ _ ha hdur' (curr (st.solver.integrate (fun _ x => core torque elOde load
          (inp st.solver.y fun j => M.out δ a o (curr st.solver.y) j * up st.solver.y z) x) (k * d + o')).1.y)
        obtain ⟨p'', h1, h2⟩ := hafter p' k (up st.solver.y z) i'' hafter'
        exact ⟨i'', hi'', p'', h1, h2⟩)
    simp only [List.map_cons, pieces, Call.bind, hr, stages, stagesEuler, List.getLastD_cons] at h ⊢
    rw [hout, e1] at h
    rw [hout, e1]
    exact h

/-- one step -/
theorem step_stages {up : ℕ → ℝ → ℝ → ℝ} {before : P → ℕ → ℝ → Prop} (hode : ∀ x u w, ode x u w = elOde x (vec u) w) (hst : load.Static)
    (hcur : ∀ x, f.iIn (toY x) = List.ofFn (curr x)) (hU : ∀ x w, ∃ v, f.lastU (toY x) (List.ofFn w) = .ok v ∧ vec v = inp x w)
    (hset : ∀ c δ a t, holds c δ → legal a → ∃ c', pw.setAction c a t = (c', .ok ((M.times δ a).map (t + ·))) ∧
      (∀ i : Fin n → ℝ, pw.iSup c' (List.ofFn i) = .ok (M.sup δ a i)) ∧ during c' δ a t)
    (hduring : ∀ c δ a t, legal a → during c δ a t → ∀ i : Fin n → ℝ, (∃ w, pw.iSup c (List.ofFn i) = .ok w) ∧
      ∀ o, ∃ c', pw.convert c (List.ofFn i) (t + o) = (c', .ok (List.ofFn (M.out δ a o i))) ∧ during c' δ a t ∧
        holds c' (M.next δ a o))
    (hbefore : ∀ p (k : ℕ) z i, before p k z → ∃ p', src.getVoltage p (k * d) i = (p', [up k i z]) ∧ after p' k (up k i z))
    (hafter : ∀ p (k : ℕ) z i, after p k z → ∃ p', src.getVoltage p (k * d) i = (p', [z]) ∧ after p' k z) (limits : List ℝ)
    {δ : D} (k : ℕ) (w : ℝ → (Fin (1 + m) → ℝ) → Fin n → ℝ) (steady : ℝ → (Fin (1 + m) → ℝ) → Prop) (sup : (Fin (1 + m) → ℝ) → ℝ)
    (os : List ℝ) (st : St ℝ (Euler ℝ (Fin (1 + m) → ℝ)) C P) (a : A) (ha : legal (f.action (toY st.solver.y) a))
    (htimes : (M.times δ (f.action (toY st.solver.y) a)).dropLast = os)
    (hloop : os ≠ [] → ∀ x w, ∃ v, f.loopU (toY x) (List.ofFn w) = .ok v ∧ vec v = inp x w)
    (hw0 : M.out δ (f.action (toY st.solver.y) a) 0 (curr st.solver.y) = w 0 st.solver.y)
    (hw : os ≠ [] → ∀ o x, M.out δ (f.action (toY st.solver.y) a) o (curr x) = w o x)
    (hsup : M.sup δ (f.action (toY st.solver.y) a) (curr st.solver.y) = sup st.solver.y)
    (hh : holds st.conv δ) {z : ℝ} (hb : before st.supply k z) (ht : st.t = k * d) (hts : st.solver.t = k * d) (hn : 1 ≤ st.solver.nsteps) :
    let r := simulate (eulerParts pw src load torque ode scratch toY ofY) f d limits st a
    let e := stagesEuler (fun x u => core torque elOde load u x) st.solver z (stages inp w steady d (fun x z => up k (sup x) z) 0 os)
    r.1.t = r.1.solver.t ∧ r.1.solver = e.1 ∧ after r.1.supply k e.2 ∧
      holds r.1.conv (M.next δ (f.action (toY st.solver.y) a) (os.getLastD 0)) := by
  obtain ⟨c', h1, h2, h3⟩ := hset st.conv δ _ st.t hh ha
  obtain ⟨p', g1, g2⟩ := hbefore st.supply k z (sup st.solver.y) hb
  rw [ht] at h3
  have h := pieces_stages (torque := torque) (scratch := scratch) (ofY := ofY) hode hst hcur hU hduring hafter limits ha k w steady os hloop hw
    (fun x z => up k (sup x) z) 0 z { st with conv := c' } h3 ht (by rw [add_zero]; exact hts) hn hw0
    ⟨sup st.solver.y, by rw [← hsup]; exact h2 _, p', g1, g2⟩
  have ey : (eulerParts pw src load torque ode scratch toY ofY).solverY st.solver = toY st.solver.y := rfl
  have eset : (eulerParts pw src load torque ode scratch toY ofY).setAction = pw.setAction := rfl
  unfold simulate
  simp only [ey, eset, h1, shift_dropLast, htimes]
  rw [ht]
  rw [ht] at h
  exact h

end simulation

/-- The general theorem: in the step `k` the converter has the output `w k o x` from the time `o` on, if the stage begins with the state
`x`, and draws the current `sup k x` from the supply. -/
theorem episodes_approach {m n l : ℕ} {Y U A C D P : Type} {torque : (Fin m → ℝ) → ℝ}
    {elOde : (Fin m → ℝ) → (Fin l → ℝ) → ℝ → Fin m → ℝ} {W loss : (Fin m → ℝ) → ℝ} {Pw : (Fin m → ℝ) → (Fin l → ℝ) → ℝ}
    {cur : List (Fin m)} (hs : Sound torque elOde W loss Pw cur) {ode : (Fin m → ℝ) → U → ℝ → Fin m → ℝ} {vec : U → Fin l → ℝ}
    (hode : ∀ x u w, ode x u w = elOde x (vec u) w) {pw : Power A C} {M : Machine D A n} {legal : A → Prop} {holds : C → D → Prop}
    (hR : Realises pw M legal holds) {src : Source P} {okP : P → Prop} {d : ℝ} {up : ℕ → ℝ → ℝ → ℝ} {z0 : ℝ}
    (hS : Supplies src okP d up z0) (hd : 0 < d) {load : AnyLoad} (hl : load.Ok) (hst : load.Static)
    (scratch : Option (Fin (1 + m) → ℝ)) (limits : List ℝ) (f : Frame ℝ Y U A) (rep : Y → List ℝ → List ℝ → Except Err (List ℝ))
    (toY : (Fin (1 + m) → ℝ) → Y) (ofY : Y → Fin (1 + m) → ℝ) (y : Y) (as : ℕ → A) {curr : (Fin (1 + m) → ℝ) → Fin n → ℝ}
    (hcur : ∀ x, f.iIn (toY x) = List.ofFn (curr x)) {inp : (Fin (1 + m) → ℝ) → (Fin n → ℝ) → Fin l → ℝ}
    (hU : ∀ x w, ∃ v, f.lastU (toY x) (List.ofFn w) = .ok v ∧ vec v = inp x w) (δs : ℕ → D) (inner : ℕ → List ℝ)
    (hleg : ∀ k x, legal (f.action (toY x) (as k))) (htimes : ∀ k x, (M.times (δs k) (f.action (toY x) (as k))).dropLast = inner k)
    (hnext : ∀ k x, M.next (δs k) (f.action (toY x) (as k)) ((inner k).getLastD 0) = δs (k + 1))
    (hloop : ∀ k, inner k ≠ [] → ∀ x w, ∃ v, f.loopU (toY x) (List.ofFn w) = .ok v ∧ vec v = inp x w)
    {w : ℕ → ℝ → (Fin (1 + m) → ℝ) → Fin n → ℝ} {steady : ℕ → ℝ → (Fin (1 + m) → ℝ) → Prop} {sup : ℕ → (Fin (1 + m) → ℝ) → ℝ}
    (hw0 : ∀ k x, M.out (δs k) (f.action (toY x) (as k)) 0 (curr x) = w k 0 x)
    (hw : ∀ k, inner k ≠ [] → ∀ x o x', M.out (δs k) (f.action (toY x) (as k)) o (curr x') = w k o x')
    (hsup : ∀ k x, M.sup (δs k) (f.action (toY x) (as k)) (curr x) = sup k x)
    (hsort : ∀ k, (inner k).Pairwise (· ≤ ·)) (hin : ∀ k, ∀ o ∈ inner k, 0 ≤ o ∧ o ≤ d)
    (hsm : ∀ k o x z, steady k o x → LipAt (fun q : (Fin (1 + m) → ℝ) × ℝ => inp q.1 fun j => w k o q.1 j * q.2) (x, z))
    (hsu : ∀ k x z, steady k 0 x → LipAt (fun q : (Fin (1 + m) → ℝ) × ℝ => up k (sup k q.1) q.2) (x, z)) :
    Approaches (fun x u => core torque elOde load u x)
      (fun k => stages inp (w k) (steady k) d (fun x z => up k (sup k x) z) 0 (inner k)) d (ofY y) z0
      (S := Before (Fin (1 + m) → ℝ) C P (fun c => holds c (δs 0)) okP) (fun st => st.1.solver.nsteps)
      (fun st n => episode (eulerParts pw src load torque ode scratch toY ofY) f rep d limits y as st.1 n) := by
  obtain ⟨⟨during, hset, hduring⟩, hreset⟩ := hR
  obtain ⟨⟨before, after, hs0, hbefore, hafter, hba⟩, hlip⟩ := hS
  have hsp : ∀ k, span (stages inp (w k) (steady k) d (fun x z => up k (sup k x) z) 0 (inner k)) = d := fun k => by
    rw [stages_span, sub_zero]
  have h := approaches hs hl hst hd
    (plan := fun k => stages inp (w k) (steady k) d (fun x z => up k (sup k x) z) 0 (inner k))
    (fun k => stages_nonneg _ _ _ _ _ _ _ (List.pairwise_cons.2 ⟨fun o ho => (hin k o ho).1, hsort k⟩) (fun o ho => by
      rcases List.mem_cons.1 ho with rfl | ho
      · exact hd.le
      · exact (hin k o ho).2))
    hsp (fun k => stages_smooth (hsm k) _ _ _ (hsu k)) (ofY y) z0
    (S := Before (Fin (1 + m) → ℝ) C P (fun c => holds c (δs 0)) okP)
    (fun st => st.1.solver.setInitialValue (ofY y) 0) (fun st => ⟨rfl, rfl⟩)
  have key : ∀ (st : Before (Fin (1 + m) → ℝ) C P (fun c => holds c (δs 0)) okP), 1 ≤ st.1.solver.nsteps → ∀ n : ℕ,
      let r := simulates (eulerParts pw src load torque ode scratch toY ofY) f d limits
        (reset (eulerParts pw src load torque ode scratch toY ofY) rep limits st.1 y).1 ((List.range n).map as)
      let e := sampledEuler (fun x u => core torque elOde load u x)
        (fun k => stages inp (w k) (steady k) d (fun x z => up k (sup k x) z) 0 (inner k))
        (st.1.solver.setInitialValue (ofY y) 0) z0 n
      r.t = r.solver.t ∧ r.solver = e.1 ∧ before r.supply n e.2 ∧ holds r.conv (δs n) := by
    intro st hn n
    induction n with
    | zero => exact ⟨rfl, rfl, hs0 _ st.2.2, hreset _ _ st.2.1⟩
    | succ n ih =>
      obtain ⟨i1, i2, i3, i4⟩ := ih
      obtain ⟨hT, hN⟩ := sampledEuler_time (fun x u => core torque elOde load u x) hsp (st.1.solver.setInitialValue (ofY y) 0) z0 hn n
      have e0 : (st.1.solver.setInitialValue (ofY y) 0).t = 0 := rfl
      rw [e0, zero_add] at hT
      simp only [List.range_succ, List.map_append, List.map_cons, List.map_nil, simulates, List.foldl_append, List.foldl_cons, List.foldl_nil]
      simp only [simulates] at i1 i2 i3 i4
      set r := List.foldl (fun st a => (simulate (eulerParts pw src load torque ode scratch toY ofY) f d limits st a).1)
        (reset (eulerParts pw src load torque ode scratch toY ofY) rep limits st.1 y).1 ((List.range n).map as) with hr
      have hts : r.solver.t = n * d := by rw [i2, hT]
      obtain ⟨h1, h2, h3, h4⟩ := step_stages (torque := torque) (scratch := scratch) (ofY := ofY) hode hst hcur hU hset hduring hbefore hafter
        limits n (w n) (steady n) (sup n) (inner n) r (as n) (hleg n _) (htimes n _) (hloop n) (hw0 n _) (fun h => hw n h _) (hsup n _) i4 i3
        (i1.trans hts) hts (by rw [i2, hN]; exact hn)
      rw [i2] at h2 h3
      refine ⟨h1, h2, hba _ _ _ h3, ?_⟩
      rw [← hnext n r.solver.y]
      exact h4
  obtain ⟨s, z, h1, h2, h3, h4, h5⟩ := h
  refine ⟨s, z, h1, h2, h3, h4, fun n hgd => ?_⟩
  obtain ⟨C, hC⟩ := h5 n hgd
  exact ⟨C, fun st hn i => by
    have := hC st hn i
    have hk := (key st hn n).2.1
    simp only [episode]
    rw [hk]
    exact this⟩

/-- The positions of the switches before the steps of an episode. -/
def positions {A D : Type} {n : ℕ} (M : Machine D A n) (as : ℕ → A) (δ : D) : ℕ → D
  | 0 => δ
  | k + 1 => M.next (positions M as δ k) (as k) ((M.times (positions M as δ k) (as k)).dropLast.getLastD 0)

/-- The stages of the steps, for a converter like `M` with the actions `as` and a supply: a new stage begins with every switching time.
`curr` are the currents in the converter and `inp` the input of the motor for its voltages, both in the state at the beginning of the
stage. -/
def plan {E U A D : Type} [NormedAddCommGroup E] {n : ℕ} (M : Machine D A n) (up : ℕ → ℝ → ℝ → ℝ) (inp : E → (Fin n → ℝ) → U)
    (curr : E → Fin n → ℝ) (d : ℝ) (δ : D) (as : ℕ → A) (k : ℕ) : List (Stage E U) :=
  stages inp (fun o x => M.out (positions M as δ k) (as k) o (curr x))
    (fun o x => Steady (M.out (positions M as δ k) (as k) o) (curr x)) d
    (fun x z => up k (M.sup (positions M as δ k) (as k) (curr x)) z) 0 (M.times (positions M as δ k) (as k)).dropLast

/-- The system with actions that go to the converter as they are: `control_space == "abc"` (physical_systems.py:491, 777), and the
systems without control space. -/
def asIs {Y U A : Type} (f : Frame ℝ Y U (List ℝ)) : Frame ℝ Y U A := ⟨f.iIn, fun _ a => a, f.loopU, f.lastU, f.report⟩

/-- The switching times belong to a step of length `d`. -/
def SwitchesWithin {A D : Type} {n : ℕ} (M : Machine D A n) (d : ℝ) : Prop := ∀ δ a, ∀ o ∈ M.times δ a, 0 ≤ o ∧ o ≤ d

/-- Episodes of a system approach the motion of the drive, for every converter, supply and load, and all actions.  With `whole`, the
steps must not have inner switching times. -/
def DriveApproaches {m n l : ℕ} {Y U : Type} (torque : (Fin m → ℝ) → ℝ) (elOde : (Fin m → ℝ) → (Fin l → ℝ) → ℝ → Fin m → ℝ)
    (ode : (Fin m → ℝ) → U → ℝ → Fin m → ℝ) (toY : (Fin (1 + m) → ℝ) → Y) (ofY : Y → Fin (1 + m) → ℝ) (f : Frame ℝ Y U (List ℝ))
    (rep : Y → List ℝ → List ℝ → Except Err (List ℝ)) (curr : (Fin (1 + m) → ℝ) → Fin n → ℝ)
    (inp : (Fin (1 + m) → ℝ) → (Fin n → ℝ) → Fin l → ℝ) (whole : Prop) : Prop :=
  ∀ (A C D P : Type) (pw : Power A C) (M : Machine D A n) (legal : A → Prop) (holds : C → D → Prop), Realises pw M legal holds →
    Regular M → ∀ (src : Source P) (okP : P → Prop) (d : ℝ) (up : ℕ → ℝ → ℝ → ℝ) (z0 : ℝ), Supplies src okP d up z0 → 0 < d → SwitchesWithin M d →
    ∀ load : AnyLoad, load.Ok → load.Static → ∀ (scratch : Option (Fin (1 + m) → ℝ)) (limits : List ℝ) (y : Y) (δ : D) (as : ℕ → A),
    (∀ k, legal (as k)) → (whole → ∀ k, (M.times (positions M as δ k) (as k)).dropLast = []) →
    Approaches (fun x u => core torque elOde load u x) (plan M up inp curr d δ as) d (ofY y) z0
      (S := Before (Fin (1 + m) → ℝ) C P (fun c => holds c δ) okP) (fun st => st.1.solver.nsteps)
      (fun st n => episode (eulerParts pw src load torque ode scratch toY ofY) (asIs f) rep d limits y as st.1 n)

/-- a converter whose output does not jump at the currents of the state -/
theorem lipAt_steady {n : ℕ} {out : (Fin n → ℝ) → Fin n → ℝ} {curr : E → Fin n → ℝ} (hc : LipBdd curr) {x : E}
    (hq : Steady out (curr x)) {inp : E → (Fin n → ℝ) → G} (hi : LipBdd fun q : E × (Fin n → ℝ) => inp q.1 q.2) (z : ℝ) :
    LipAt (fun q : E × ℝ => inp q.1 fun j => out (curr q.1) j * q.2) (x, z) := by
  have h1 : LipAt (fun q : E × ℝ => (q.1, fun j => out (curr x) j * q.2)) (x, z) := by
    refine (lipAt_fst (x, z)).prodMk ?_
    have h2 : LipBdd fun v : ℝ => fun j => out (curr x) j * v := LipBdd.pi fun j => (LipBdd.const _).mul lipBdd_id
    exact h2.comp_lipAt (lipAt_snd (x, z))
  have h3 := hi.comp_lipAt h1
  refine h3.congr ?_
  have hcc : Tendsto (fun q : E × ℝ => curr q.1) (𝓝 (x, z)) (𝓝 (curr x)) :=
    (hc.lipAt x).tendsto.comp ((lipAt_fst (x, z)).tendsto)
  filter_upwards [hcc.eventually hq] with q hq
  rw [hq]

theorem drive_approaches {m n l : ℕ} {Y U : Type} {torque : (Fin m → ℝ) → ℝ} {elOde : (Fin m → ℝ) → (Fin l → ℝ) → ℝ → Fin m → ℝ}
    {W loss : (Fin m → ℝ) → ℝ} {Pw : (Fin m → ℝ) → (Fin l → ℝ) → ℝ} {cur : List (Fin m)} (hs : Sound torque elOde W loss Pw cur)
    {ode : (Fin m → ℝ) → U → ℝ → Fin m → ℝ} (vec : U → Fin l → ℝ) (hode : ∀ x u w, ode x u w = elOde x (vec u) w)
    {toY : (Fin (1 + m) → ℝ) → Y} {ofY : Y → Fin (1 + m) → ℝ} {f : Frame ℝ Y U (List ℝ)}
    {rep : Y → List ℝ → List ℝ → Except Err (List ℝ)} {curr : (Fin (1 + m) → ℝ) → Fin n → ℝ}
    {inp : (Fin (1 + m) → ℝ) → (Fin n → ℝ) → Fin l → ℝ} {whole : Prop} (hcur : ∀ x, f.iIn (toY x) = List.ofFn (curr x))
    (hlc : LipBdd curr) (hU : ∀ x w, ∃ v, f.lastU (toY x) (List.ofFn w) = .ok v ∧ vec v = inp x w)
    (hloop : ¬ whole → ∀ x w, ∃ v, f.loopU (toY x) (List.ofFn w) = .ok v ∧ vec v = inp x w)
    (hinp : LipBdd fun q : (Fin (1 + m) → ℝ) × (Fin n → ℝ) => inp q.1 q.2) :
    DriveApproaches torque elOde ode toY ofY f rep curr inp whole := by
  intro A C D P pw M legal holds hR hM src okP d up z0 hS hd hfit load hl hst scratch limits y δ as has hwhole
  refine episodes_approach hs hode hR hS hd hl hst scratch limits (asIs f) rep toY ofY y as hcur hU (positions M as δ)
    (fun k => (M.times (positions M as δ k) (as k)).dropLast) (fun k _ => has k) (fun k _ => rfl) (fun k _ => rfl)
    (fun k hk => hloop fun h => hk (hwhole h k)) (fun k x => rfl) (fun k _ x o x' => rfl) (fun k x => rfl) (fun k => hM.sorted _ _)
    (fun k o ho => hfit _ _ o (List.mem_of_mem_dropLast ho)) (fun k o x z hq => lipAt_steady hlc hq hinp z) (fun k x z _ => ?_)
  have h1 : LipAt (fun q : (Fin (1 + m) → ℝ) × ℝ => (M.sup (positions M as δ k) (as k) (curr q.1), q.2)) (x, z) :=
    ((hM.sup _ _).comp_lipAt (hlc.comp_lipAt (lipAt_fst (x, z)))).prodMk (lipAt_snd (x, z))
  exact (hS.2 k).comp_lipAt h1

theorem l3_ofFn (v : Fin 3 → ℝ) : l3 v = List.ofFn v := by simp [l3, List.ofFn_succ]

theorem three_ofFn (v : Fin 3 → ℝ) : three (List.ofFn v) = .ok v := by rw [← l3_ofFn, three_l3]

/-! ### Lipschitz functions -/

theorem lip_clip {f : E → ℝ} (hf : LipBdd f) (lo hi : ℝ) : LipBdd (fun x => clip (f x) lo hi) := by
  refine hf.comp (φ := fun v => clip v lo hi) fun v w => ?_
  unfold clip
  refine (abs_min_sub_min_le_max _ _ _ _).trans ?_
  rw [sub_self, abs_zero]
  refine max_le ((abs_max_sub_max_le_max _ _ _ _).trans ?_) (abs_nonneg _)
  rw [sub_self, abs_zero]
  exact max_le le_rfl (abs_nonneg _)

theorem lip_sin {f : E → ℝ} (hf : LipBdd f) : LipBdd (fun x => Real.sin (f x)) :=
  hf.comp (φ := Real.sin) fun v w => by
    have := convex_univ.norm_image_sub_le_of_norm_hasDerivWithin_le (f := Real.sin) (f' := Real.cos) (C := 1) (x := w) (y := v)
      (fun x _ => (Real.hasDerivAt_sin x).hasDerivWithinAt) (fun x _ => Real.abs_cos_le_one x) (mem_univ _) (mem_univ _)
    simpa using this

theorem lip_cos {f : E → ℝ} (hf : LipBdd f) : LipBdd (fun x => Real.cos (f x)) :=
  hf.comp (φ := Real.cos) fun v w => by
    have := convex_univ.norm_image_sub_le_of_norm_hasDerivWithin_le (f := Real.cos) (f' := fun x => -Real.sin x) (C := 1) (x := w)
      (y := v) (fun x _ => (Real.hasDerivAt_cos x).hasDerivWithinAt)
      (fun x _ => by rw [norm_neg]; exact Real.abs_sin_le_one x) (mem_univ _) (mem_univ _)
    simpa using this

/-- polynomial expressions in given functions -/
macro "lip3" : tactic => `(tactic| repeat (first
  | assumption | exact LipBdd.const _ | apply LipBdd.add | apply LipBdd.sub | apply LipBdd.mul | apply LipBdd.neg))

theorem lip_abcToDq {v : E → Fin 3 → ℝ} {eps : E → ℝ} (hv : ∀ i, LipBdd fun x => v x i) (he : LipBdd eps) :
    LipBdd fun x => abcToDq (v x) (eps x) := by
  have h := lip_sin he
  have h' := lip_cos he
  apply LipBdd.pi
  intro i
  have h0 := hv 0
  have h1 := hv 1
  have h2 := hv 2
  fin_cases i <;>
  · simp [abcToDq, qInv, q, t23, Matrix.mulVec, dotProduct, Fin.sum_univ_succ]
    lip3

theorem lip_dqToAbc {v : E → Fin 2 → ℝ} (hv : ∀ i, LipBdd fun x => v x i) {eps : E → ℝ} (he : LipBdd eps) (i : Fin 3) :
    LipBdd fun x => dqToAbc (v x) (eps x) i := by
  have h := lip_sin he
  have h' := lip_cos he
  have h0 := hv 0
  have h1 := hv 1
  fin_cases i <;>
  · simp [dqToAbc, q, t32, Matrix.mulVec, dotProduct, Fin.sum_univ_succ]
    lip3

theorem lip_t23 {v : E → Fin 3 → ℝ} (hv : ∀ i, LipBdd fun x => v x i) : LipBdd fun x => t23 (v x) := by
  apply LipBdd.pi
  intro i
  have h0 := hv 0
  have h1 := hv 1
  have h2 := hv 2
  fin_cases i <;>
  · simp [t23, Matrix.mulVec, dotProduct, Fin.sum_univ_succ]
    lip3

theorem lip_t32 {v : E → Fin 2 → ℝ} (hv : ∀ i, LipBdd fun x => v x i) (i : Fin 3) : LipBdd fun x => t32 (v x) i := by
  have h0 := hv 0
  have h1 := hv 1
  fin_cases i <;>
  · simp [t32, Matrix.mulVec, dotProduct, Fin.sum_univ_succ]
    lip3

theorem lip_two {f g : E → ℝ} (hf : LipBdd f) (hg : LipBdd g) (i : Fin 2) : LipBdd fun x => ![f x, g x] i := by
  fin_cases i
  · exact hf
  · exact hg

theorem lip_three {f g h : E → ℝ} (hf : LipBdd f) (hg : LipBdd g) (hh : LipBdd h) (i : Fin 3) : LipBdd fun x => ![f x, g x, h x] i := by
  fin_cases i
  · exact hf
  · exact hg
  · exact hh

theorem LipBdd.entry {k : ℕ} {f : E → Fin k → ℝ} (hf : LipBdd f) (i : Fin k) : LipBdd fun x => f x i := fun R => by
  obtain ⟨L, hL, hl⟩ := hf R
  exact ⟨L, hL, fun x y hx hy => (norm_le_pi_norm (f x - f y) i).trans (hl x y hx hy)⟩

/-! ## DC drives -/

/-- the state of a DC system, from the state of the solver -/
def dcY {m : ℕ} (x : Fin (1 + m) → ℝ) : DcY ℝ := ⟨[x (Fin.castAdd m 0)], List.ofFn fun i => x (Fin.natAdd 1 i)⟩

/-- and back -/
def ofDcY {m : ℕ} (y : DcY ℝ) : Fin (1 + m) → ℝ := fun i => (y.mech ++ y.motor).getD i 0

/-- Episodes of a DC motor system approach the motion of the drive; `iIn` is the motor's `i_in`, in terms of vectors `curr`. -/
def DcApproaches {m n : ℕ} (torque : (Fin m → ℝ) → ℝ) (elOde : (Fin m → ℝ) → (Fin n → ℝ) → ℝ → Fin m → ℝ)
    (iIn : List ℝ → List ℝ) (curr : (Fin m → ℝ) → Fin n → ℝ) : Prop :=
  ∀ (tq : List ℝ → ℝ) (ci : List ℕ) (nV sl : ℕ),
    DriveApproaches torque elOde (fun x (u : List ℝ) w => elOde x (fun i => u.getD i 0) w) dcY ofDcY (dcFrame iIn tq ci nV sl)
      (dcResetReport tq ci) (fun x => curr (motorPart x)) (fun _ w => w) False

theorem dc_approaches {m n : ℕ} {torque : (Fin m → ℝ) → ℝ} {elOde : (Fin m → ℝ) → (Fin n → ℝ) → ℝ → Fin m → ℝ}
    {W loss : (Fin m → ℝ) → ℝ} {P : (Fin m → ℝ) → (Fin n → ℝ) → ℝ} {cur : List (Fin m)} (hs : Sound torque elOde W loss P cur)
    {iIn : List ℝ → List ℝ} {curr : (Fin m → ℝ) → Fin n → ℝ} (hi : ∀ z, iIn (List.ofFn z) = List.ofFn (curr z))
    (hc : LipBdd fun x : Fin (1 + m) → ℝ => curr (motorPart x)) : DcApproaches torque elOde iIn curr := by
  intro tq ci nV sl
  have hU : ∀ (x : Fin (1 + m) → ℝ) (w : Fin n → ℝ), ∃ v : List ℝ,
      (dcFrame (A := List ℝ) iIn tq ci nV sl).lastU (dcY x) (List.ofFn w) = .ok v ∧ (fun i : Fin n => v.getD i 0) = w :=
    fun x w => ⟨List.ofFn w, rfl, by funext i; simp⟩
  exact drive_approaches hs (fun (u : List ℝ) (i : Fin n) => u.getD i 0) (fun _ _ _ => rfl) (fun x => hi _) hc hU (fun _ => hU)
    (LipBdd.pi fun i => LipBdd.snd i)

/-- C107 for DC motors. -/
theorem c107_dc (mp : DcParams ℝ) (pe : PermExParams ℝ) (hla : 0 < mp.la) (hle : 0 < mp.le) (hra : 0 ≤ mp.ra)
    (hre : 0 ≤ mp.re) (pl : 0 < pe.la) (pr : 0 ≤ pe.ra) :
    DcApproaches (dcTorque mp) (dcOde mp) id id ∧
    DcApproaches (dcTorque mp) (shuntOde mp) (fun l => [l.getD 0 0 + l.getD 1 0]) (fun z => ![z 0 + z 1]) ∧
    DcApproaches (seriesTorque mp) (seriesOde mp) id id ∧
    DcApproaches (permExTorque pe) (permExOde pe) id id := by
  refine ⟨dc_approaches (extEx_sound mp hla hle hra hre) (fun _ => rfl) (LipBdd.pi fun i => LipBdd.proj _),
    dc_approaches (shunt_sound mp hla hle hra hre) (fun z => by simp) (LipBdd.pi fun i => ?_),
    dc_approaches (series_sound mp (add_pos hla hle) (add_nonneg hra hre)) (fun _ => rfl) (LipBdd.pi fun i => LipBdd.proj _),
    dc_approaches (permEx_sound pe pl pr) (fun _ => rfl) (LipBdd.pi fun i => LipBdd.proj _)⟩
  have : i = 0 := Subsingleton.elim _ _
  subst this
  exact (LipBdd.proj _).add (LipBdd.proj _)

/-! ## Synchronous motors -/

/-- the state of a PMSM or SynRM system, from the state of the solver -/
def syncY (x : Fin (1 + 3) → ℝ) : SyncY := ⟨[x 0], ![x 1, x 2], x 3⟩
/-- and back -/
def ofSyncY (y : SyncY) : Fin (1 + 3) → ℝ := ![y.mech.headD 0, y.i 0, y.i 1, y.eps]
/-- currents of the phases -/
def syncCurr (x : Fin (1 + 3) → ℝ) : Fin 3 → ℝ := dqToAbc ![x 1, x 2] (x 3)

theorem lip_syncCurr : LipBdd syncCurr :=
  LipBdd.pi fun i => lip_dqToAbc (lip_two (LipBdd.proj 1) (LipBdd.proj 2)) (LipBdd.proj 3) i

/-- Episodes of a PMSM or SynRM system with actions for the phases approach the motion of the drive. -/
def SyncApproaches (torque : (Fin 3 → ℝ) → ℝ) (elOde : (Fin 3 → ℝ) → (Fin 2 → ℝ) → ℝ → Fin 3 → ℝ) : Prop :=
  ∀ tq : SyncY → ℝ, DriveApproaches torque elOde elOde syncY ofSyncY (syncFrame tq false) (syncReset tq) syncCurr
    (fun x w => abcToDq w (x 3)) False

theorem sync_approaches {torque : (Fin 3 → ℝ) → ℝ} {elOde : (Fin 3 → ℝ) → (Fin 2 → ℝ) → ℝ → Fin 3 → ℝ}
    {W loss : (Fin 3 → ℝ) → ℝ} {P : (Fin 3 → ℝ) → (Fin 2 → ℝ) → ℝ} {cur : List (Fin 3)} (hs : Sound torque elOde W loss P cur) :
    SyncApproaches torque elOde := by
  intro tq
  have hU : ∀ (x : Fin (1 + 3) → ℝ) (w : Fin 3 → ℝ), ∃ v,
      (three (List.ofFn w)).map (fun v => abcToDq v (syncY x).eps) = .ok v ∧ id v = abcToDq w (x 3) := fun x w =>
    ⟨abcToDq w (x 3), by rw [three_ofFn]; rfl, rfl⟩
  exact drive_approaches hs id (fun _ _ _ => rfl) (fun x => l3_ofFn _) lip_syncCurr hU (fun _ => hU)
    (lip_abcToDq (fun i => LipBdd.snd i) (LipBdd.fst 3))

/-- the effect of the interlocking time does not change near currents that are not zero -/
theorem dead_near {curr : E → Fin 3 → ℝ} (hc : LipBdd curr) {tau il : ℝ} {x : E} (h : ∀ k, il = 0 ∨ curr x k ≠ 0) :
    ∀ᶠ y in 𝓝 x, ∀ k, dead tau il (curr y k) = dead tau il (curr x k) := by
  refine eventually_all.2 fun k => ?_
  rcases h k with h | h
  · exact Eventually.of_forall fun y => by simp [dead, h]
  have hk : ContinuousAt (fun y => curr y k) x := ((hc.entry k).lipAt x).tendsto
  rcases lt_or_gt_of_ne h with h | h
  · filter_upwards [hk.eventually_lt continuousAt_const h] with y hy
    simp only [dead, sign_neg hy, sign_neg h]
  · filter_upwards [continuousAt_const.eventually_lt hk h] with y hy
    simp only [dead, sign_pos hy, sign_pos h]

/-- the output of a phase, for its action and a fixed effect of the interlocking time -/
def half (δ a : ℝ) : ℝ := clip (clip (1 / 2 * (a + 1)) 0 1 - δ) 0 1 - 1 / 2

theorem cB6Out_l3 (tau il : ℝ) (v i : Fin 3 → ℝ) (k : Fin 3) : cB6Out tau il (l3 v) i k = half (dead tau il (i k)) (v k) := by
  unfold cB6Out half
  fin_cases k <;> rfl

theorem lip_half {f : E → ℝ} (hf : LipBdd f) (δ : ℝ) : LipBdd fun x => half δ (f x) :=
  (lip_clip ((lip_clip ((LipBdd.const (1 / 2)).mul (hf.add (LipBdd.const 1))) 0 1).sub (LipBdd.const δ)) 0 1).sub (LipBdd.const (1 / 2))

/-- the current that a bridge with actions `v` for the phases draws from the supply -/
def bridgeSup (tau il : ℝ) (v i : Fin 3 → ℝ) : ℝ := ∑ k : Fin 3, legDraw tau il (clip (1 / 2 * (v k + 1)) 0 1) (i k)

theorem cB6Sup_l3 (tau il : ℝ) (v i : Fin 3 → ℝ) : cB6Sup tau il (l3 v) i = bridgeSup tau il v i := by
  unfold cB6Sup bridgeSup
  refine Finset.sum_congr rfl fun k _ => ?_
  fin_cases k <;> rfl

theorem lip_bridgeSup {v i : E → Fin 3 → ℝ} (hv : ∀ k, LipBdd fun x => v x k) (hi : ∀ k, LipBdd fun x => i x k) (tau il : ℝ) :
    LipBdd fun x => bridgeSup tau il (v x) (i x) :=
  LipBdd.sum _ fun k _ => lip_legDraw (lip_clip ((LipBdd.const (1 / 2)).mul ((hv k).add (LipBdd.const 1))) 0 1) (hi k) tau il

/-- The stages of the steps with a continuous bridge and actions in dq coordinates: one each.  `angle` is the angle of the
coordinates. -/
def dqPlan {E U : Type} [NormedAddCommGroup E] (tau il : ℝ) (up : ℕ → ℝ → ℝ → ℝ) (inp : E → (Fin 3 → ℝ) → U)
    (curr : E → Fin 3 → ℝ) (angle : E → ℝ) (good : E → Prop) (d : ℝ) (as : ℕ → Fin 2 → ℝ) (k : ℕ) : List (Stage E U) :=
  [⟨d, fun x z => up k (bridgeSup tau il (dqToAbc (as k) (angle x)) (curr x)) z,
    fun x z => inp x fun j => half (dead tau il (curr x j)) (dqToAbc (as k) (angle x) j) * z,
    fun x => good x ∧ ∀ j, il = 0 ∨ curr x j ≠ 0⟩]

/-- Episodes of a system with a continuous bridge and actions in dq coordinates approach the motion of the drive, for every supply
and load, and all actions. -/
def DqApproaches {m l : ℕ} {Y U : Type} (torque : (Fin m → ℝ) → ℝ) (elOde : (Fin m → ℝ) → (Fin l → ℝ) → ℝ → Fin m → ℝ)
    (ode : (Fin m → ℝ) → U → ℝ → Fin m → ℝ) (toY : (Fin (1 + m) → ℝ) → Y) (ofY : Y → Fin (1 + m) → ℝ) (f : Frame ℝ Y U (List ℝ))
    (rep : Y → List ℝ → List ℝ → Except Err (List ℝ)) (curr : (Fin (1 + m) → ℝ) → Fin 3 → ℝ)
    (inp : (Fin (1 + m) → ℝ) → (Fin 3 → ℝ) → Fin l → ℝ) (angle : (Fin (1 + m) → ℝ) → ℝ) (good : (Fin (1 + m) → ℝ) → Prop) : Prop :=
  ∀ (tau il : ℝ) (P : Type) (src : Source P) (okP : P → Prop) (d : ℝ) (up : ℕ → ℝ → ℝ → ℝ) (z0 : ℝ), Supplies src okP d up z0 → 0 < d →
    ∀ load : AnyLoad, load.Ok → load.Static → ∀ (scratch : Option (Fin (1 + m) → ℝ)) (limits : List ℝ) (y : Y) (as : ℕ → Fin 2 → ℝ),
    Approaches (fun x u => core torque elOde load u x) (dqPlan tau il up inp curr angle good d as) d (ofY y) z0
      (S := Before (Fin (1 + m) → ℝ) (CConv ℝ) P (IsCB6 tau il) okP) (fun st => st.1.solver.nsteps)
      (fun st n => episode (eulerParts contPower src load torque ode scratch toY ofY) f rep d limits y (fun k => l2 (as k)) st.1 n)

theorem two_eta (v : Fin 2 → ℝ) : ![v 0, v 1] = v := by funext i; fin_cases i <;> rfl

theorem lipAt_dqToAbc (v : Fin 2 → ℝ) {angle : E → ℝ} {x : E} (h : LipAt (fun x => ![Real.cos (angle x), Real.sin (angle x)]) x) :
    LipAt (fun x => dqToAbc v (angle x)) x := by
  have h0 : LipBdd fun c : Fin 2 → ℝ => c 0 := LipBdd.proj 0
  have h1 : LipBdd fun c : Fin 2 → ℝ => c 1 := LipBdd.proj 1
  have a : LipBdd fun c : Fin 2 → ℝ => t32 ![c 0 * v 0 - c 1 * v 1, c 1 * v 0 + c 0 * v 1] :=
    LipBdd.pi fun i => lip_t32 (fun j => lip_two ((h0.mul (LipBdd.const _)).sub (h1.mul (LipBdd.const _)))
      ((h1.mul (LipBdd.const _)).add (h0.mul (LipBdd.const _))) j) i
  refine (a.comp_lipAt h).congr (Eventually.of_forall fun y => ?_)
  simp only [dqToAbc, q, Matrix.cons_val_zero, Matrix.cons_val_one]

theorem dq_input {curr v : E → Fin 3 → ℝ} (hc : LipBdd curr) {inp : E → (Fin 3 → ℝ) → G}
    (hi : LipBdd fun q : E × (Fin 3 → ℝ) => inp q.1 q.2) {tau il : ℝ} {x : E} (hv : LipAt v x) (h : ∀ j, il = 0 ∨ curr x j ≠ 0) (z : ℝ) :
    LipAt (fun q : E × ℝ => inp q.1 fun j => half (dead tau il (curr q.1 j)) (v q.1 j) * q.2) (x, z) := by
  have h1 : LipAt (fun q : E × ℝ => (v q.1, q.2)) (x, z) := (hv.comp (lipAt_fst (x, z))).prodMk (lipAt_snd (x, z))
  have h2 : LipBdd fun c : (Fin 3 → ℝ) × ℝ => fun j => half (dead tau il (curr x j)) (c.1 j) * c.2 :=
    LipBdd.pi fun j => (lip_half (LipBdd.fst j) _).mul lipBdd_snd
  have h4 : LipAt (fun q : E × ℝ => fun j => half (dead tau il (curr x j)) (v q.1 j) * q.2) (x, z) := h2.comp_lipAt h1
  have h3 := hi.comp_lipAt ((lipAt_fst (x, z)).prodMk h4)
  refine h3.congr ?_
  filter_upwards [(lipAt_fst (x, z)).tendsto.eventually (dead_near hc h)] with q hq
  refine congrArg (inp q.1) (funext fun j => ?_)
  rw [hq j]

theorem dq_supply {curr v : E → Fin 3 → ℝ} (hc : LipBdd curr) {x : E} (hv : LipAt v x) {up : ℝ → ℝ → ℝ}
    (hu : LipBdd fun q : ℝ × ℝ => up q.1 q.2) (tau il z : ℝ) :
    LipAt (fun q : E × ℝ => up (bridgeSup tau il (v q.1) (curr q.1)) q.2) (x, z) := by
  have h1 : LipAt (fun q : E × ℝ => (v q.1, curr q.1)) (x, z) :=
    (hv.comp (lipAt_fst (x, z))).prodMk (hc.comp_lipAt (lipAt_fst (x, z)))
  have h2 : LipBdd fun c : (Fin 3 → ℝ) × (Fin 3 → ℝ) => bridgeSup tau il c.1 c.2 :=
    lip_bridgeSup (fun k => LipBdd.fst k) (fun k => LipBdd.snd k) tau il
  have h3 : LipAt (fun q : E × ℝ => bridgeSup tau il (v q.1) (curr q.1)) (x, z) := h2.comp_lipAt h1
  exact hu.comp_lipAt (h3.prodMk (lipAt_snd (x, z)))

theorem dq_approaches {m l : ℕ} {Y U : Type} {torque : (Fin m → ℝ) → ℝ} {elOde : (Fin m → ℝ) → (Fin l → ℝ) → ℝ → Fin m → ℝ}
    {W loss : (Fin m → ℝ) → ℝ} {Pw : (Fin m → ℝ) → (Fin l → ℝ) → ℝ} {cur : List (Fin m)} (hs : Sound torque elOde W loss Pw cur)
    {ode : (Fin m → ℝ) → U → ℝ → Fin m → ℝ} (vec : U → Fin l → ℝ) (hode : ∀ x u w, ode x u w = elOde x (vec u) w)
    {toY : (Fin (1 + m) → ℝ) → Y} {ofY : Y → Fin (1 + m) → ℝ} {f : Frame ℝ Y U (List ℝ)}
    {rep : Y → List ℝ → List ℝ → Except Err (List ℝ)} {curr : (Fin (1 + m) → ℝ) → Fin 3 → ℝ}
    {inp : (Fin (1 + m) → ℝ) → (Fin 3 → ℝ) → Fin l → ℝ} {angle : (Fin (1 + m) → ℝ) → ℝ} {good : (Fin (1 + m) → ℝ) → Prop}
    (hcur : ∀ x, f.iIn (toY x) = List.ofFn (curr x)) (hlc : LipBdd curr)
    (hU : ∀ x w, ∃ v, f.lastU (toY x) (List.ofFn w) = .ok v ∧ vec v = inp x w)
    (hact : ∀ (v : Fin 2 → ℝ) x, f.action (toY x) (l2 v) = l3 (dqToAbc v (angle x)))
    (hinp : LipBdd fun q : (Fin (1 + m) → ℝ) × (Fin 3 → ℝ) => inp q.1 q.2)
    (hang : ∀ x, good x → LipAt (fun x => ![Real.cos (angle x), Real.sin (angle x)]) x) :
    DqApproaches torque elOde ode toY ofY f rep curr inp angle good := by
  intro tau il P src okP d up z0 hS hd load hl hst scratch limits y as
  have h := episodes_approach hs hode (cB6_realises tau il) hS hd hl hst scratch limits f rep toY ofY y (fun k => l2 (as k)) hcur hU
    (fun _ => ()) (fun _ => []) (fun k x => by rw [hact]; rfl) (fun k x => rfl) (fun k x => rfl) (fun k hk => (hk rfl).elim)
    (w := fun k _ x j => half (dead tau il (curr x j)) (dqToAbc (as k) (angle x) j))
    (steady := fun _ _ x => good x ∧ ∀ j, il = 0 ∨ curr x j ≠ 0)
    (sup := fun k x => bridgeSup tau il (dqToAbc (as k) (angle x)) (curr x))
    (fun k x => by rw [hact]; funext j; exact cB6Out_l3 _ _ _ _ _) (fun k hk => (hk rfl).elim)
    (fun k x => by rw [hact]; exact cB6Sup_l3 _ _ _ _) (fun _ => List.Pairwise.nil) (fun _ o ho => by simp at ho) ?_ ?_
  · have e : (fun k => stages inp (fun _ x j => half (dead tau il (curr x j)) (dqToAbc (as k) (angle x) j))
        (fun _ x => good x ∧ ∀ j, il = 0 ∨ curr x j ≠ 0) d
        (fun x z => up k (bridgeSup tau il (dqToAbc (as k) (angle x)) (curr x)) z) 0 []) = dqPlan tau il up inp curr angle good d as := by
      funext k
      simp only [stages, dqPlan, sub_zero]
    rw [← e]
    exact h
  · exact fun k o x z h => dq_input hlc hinp (lipAt_dqToAbc (as k) (hang x h.1)) h.2 z
  · exact fun k x z h => dq_supply hlc (lipAt_dqToAbc (as k) (hang x h.1)) (hS.2 k) tau il z

/-- Episodes of a PMSM or SynRM system with a continuous B6 bridge and actions in dq coordinates approach the motion of the drive. -/
def SyncDqApproaches (torque : (Fin 3 → ℝ) → ℝ) (elOde : (Fin 3 → ℝ) → (Fin 2 → ℝ) → ℝ → Fin 3 → ℝ) : Prop :=
  ∀ tq : SyncY → ℝ, DqApproaches torque elOde elOde syncY ofSyncY (syncFrame tq true) (syncReset tq) syncCurr
    (fun x w => abcToDq w (x 3)) (fun x => x 3) fun _ => True

theorem sync_dq_approaches {torque : (Fin 3 → ℝ) → ℝ} {elOde : (Fin 3 → ℝ) → (Fin 2 → ℝ) → ℝ → Fin 3 → ℝ}
    {W loss : (Fin 3 → ℝ) → ℝ} {P : (Fin 3 → ℝ) → (Fin 2 → ℝ) → ℝ} {cur : List (Fin 3)} (hs : Sound torque elOde W loss P cur) :
    SyncDqApproaches torque elOde := by
  intro tq
  have hU : ∀ (x : Fin (1 + 3) → ℝ) (w : Fin 3 → ℝ), ∃ v,
      (three (List.ofFn w)).map (fun v => abcToDq v (syncY x).eps) = .ok v ∧ id v = abcToDq w (x 3) := fun x w =>
    ⟨abcToDq w (x 3), by rw [three_ofFn]; rfl, rfl⟩
  exact dq_approaches hs id (fun _ _ _ => rfl) (fun x => l3_ofFn _) lip_syncCurr hU
    (fun v x => by simp [syncFrame, l2, syncY, two_eta]) (lip_abcToDq (fun i => LipBdd.snd i) (LipBdd.fst 3))
    (fun x _ => (LipBdd.pi (lip_two (lip_cos (LipBdd.proj 3)) (lip_sin (LipBdd.proj 3)))).lipAt x)

/-- C107 for PMSM and SynRM, in both control spaces. -/
theorem c107_sync (mp : SyncParams ℝ) (hd : 0 < mp.ld) (hq : 0 < mp.lq) (hr : 0 ≤ mp.rs) :
    SyncApproaches (pmsmTorque mp) (syncOde (pmsmConstants mp)) ∧ SyncDqApproaches (pmsmTorque mp) (syncOde (pmsmConstants mp)) ∧
    SyncApproaches (synrmTorque mp) (syncOde (synrmConstants mp)) ∧
    SyncDqApproaches (synrmTorque mp) (syncOde (synrmConstants mp)) :=
  ⟨sync_approaches (pmsm_sound mp hd hq hr), sync_dq_approaches (pmsm_sound mp hd hq hr),
    sync_approaches (synrm_sound mp hd hq hr), sync_dq_approaches (synrm_sound mp hd hq hr)⟩

/-- the state of an EESM system, from the state of the solver -/
def eesmY (x : Fin (1 + 4) → ℝ) : EesmY := ⟨[x 0], ![x 1, x 2], x 3, x 4⟩
/-- and back -/
def ofEesmY (y : EesmY) : Fin (1 + 4) → ℝ := ![y.mech.headD 0, y.i 0, y.i 1, y.ie, y.eps]
/-- currents of the phases and of the excitation -/
def eesmCurr (x : Fin (1 + 4) → ℝ) : Fin 4 → ℝ :=
  let i := dqToAbc ![x 1, x 2] (x 4)
  ![i 0, i 1, i 2, x 3]
/-- input of the motor for the voltages of the converters -/
def eesmInput (eps : ℝ) (w : Fin 4 → ℝ) : Fin 3 → ℝ :=
  let u := abcToDq ![w 0, w 1, w 2] eps
  ![u 0, u 1, w 3]

/-- C107 for the externally excited synchronous motor: if both converters switch at the ends of the steps only (C109). -/
theorem c107_eesm (ee : EesmParams ℝ) (ed : 0 < ee.ld) (eq : 0 < ee.lq) (ek : ee.k ≠ 0) (el : 0 < ee.le)
    (es : 3 / 2 * ee.lm ^ 2 < ee.ld * ee.le) (er : 0 ≤ ee.rs) (ere : 0 ≤ ee.re) (tq : EesmY → ℝ) :
    DriveApproaches (eesmTorque ee) (eesmOde ee) (fun x (u : List ℝ) w => eesmOde ee x (fun i => u.getD i 0) w) eesmY ofEesmY
      (eesmFrame tq) (eesmReset tq) eesmCurr (fun x w => eesmInput (x 4) w) True := by
  refine drive_approaches (eesm_sound ee ed eq ek el es er ere) (fun (u : List ℝ) i => u.getD i 0) (fun _ _ _ => rfl)
    (fun x => by simp [eesmFrame, eesmY, eesmCurr, l3, List.ofFn_succ]) ?_
    (fun x w => ⟨l2 (abcToDq ![w 0, w 1, w 2] (x 4)) ++ [w 3], ?_, ?_⟩) (fun h => (h trivial).elim) ?_
  · have h := lip_dqToAbc (E := Fin (1 + 4) → ℝ) (lip_two (LipBdd.proj 1) (LipBdd.proj 2)) (LipBdd.proj 4)
    refine LipBdd.pi fun i => ?_
    fin_cases i
    · exact h 0
    · exact h 1
    · exact h 2
    · exact LipBdd.proj 3
  · simp [eesmFrame, eesmY, List.ofFn_succ, three, Except.map]
  · funext i
    fin_cases i <;> rfl
  · have h := lip_abcToDq (E := (Fin (1 + 4) → ℝ) × (Fin 4 → ℝ)) (lip_three (LipBdd.snd 0) (LipBdd.snd 1) (LipBdd.snd 2)) (LipBdd.fst 4)
    refine LipBdd.pi fun i => ?_
    fin_cases i
    · exact h.entry 0
    · exact h.entry 1
    · exact LipBdd.snd 3

/-! ## Induction motors -/

/-- the state of an induction motor system, from the state of the solver -/
def imY (x : Fin (1 + 5) → ℝ) : ImY := ⟨[x 0], ![x 1, x 2], ![x 3, x 4], x 5⟩
/-- and back -/
def ofImY (y : ImY) : Fin (1 + 5) → ℝ := ![y.mech.headD 0, y.i 0, y.i 1, y.psi 0, y.psi 1, y.eps]
/-- currents of the stator -/
def statorCurr (x : Fin (1 + 5) → ℝ) : Fin 3 → ℝ := t32 ![x 1, x 2]

theorem lip_statorCurr : LipBdd statorCurr := LipBdd.pi fun i => lip_t32 (lip_two (LipBdd.proj 1) (LipBdd.proj 2)) i

theorem lipAt_flux {x : Fin (1 + 5) → ℝ} (hx : x 3 ≠ 0 ∨ x 4 ≠ 0) :
    LipAt (fun x => ![Real.cos (imY x).field, Real.sin (imY x).field]) x := by
  have hp : ∀ x : Fin (1 + 5) → ℝ, (x 3 ≠ 0 ∨ x 4 ≠ 0) → 0 < x 3 ^ 2 + x 4 ^ 2 := fun x h => by
    rcases h with h | h <;> positivity
  refine (LipAt.of_differentiableAt (f := fun x : Fin (1 + 5) → ℝ =>
    ![x 3 / √(x 3 ^ 2 + x 4 ^ 2), x 4 / √(x 3 ^ 2 + x 4 ^ 2)]) ?_).congr ?_
  · refine differentiableAt_pi.2 fun i => ?_
    have h := hp x hx
    have hd : DifferentiableAt ℝ (fun x : Fin (1 + 5) → ℝ => √(x 3 ^ 2 + x 4 ^ 2)) x :=
      DifferentiableAt.sqrt (by fun_prop) h.ne'
    have h3 : DifferentiableAt ℝ (fun x : Fin (1 + 5) → ℝ => x 3 / √(x 3 ^ 2 + x 4 ^ 2)) x := by
      simp only [div_eq_mul_inv]
      exact (show DifferentiableAt ℝ (fun x : Fin (1 + 5) → ℝ => x 3) x by fun_prop).fun_mul (hd.fun_inv (Real.sqrt_pos.2 h).ne')
    have h4 : DifferentiableAt ℝ (fun x : Fin (1 + 5) → ℝ => x 4 / √(x 3 ^ 2 + x 4 ^ 2)) x := by
      simp only [div_eq_mul_inv]
      exact (show DifferentiableAt ℝ (fun x : Fin (1 + 5) → ℝ => x 4) x by fun_prop).fun_mul (hd.fun_inv (Real.sqrt_pos.2 h).ne')
    fin_cases i
    · exact h3
    · exact h4
  · have hc : ContinuousAt (fun x : Fin (1 + 5) → ℝ => x 3 ^ 2 + x 4 ^ 2) x := by fun_prop
    filter_upwards [hc.eventually_ne (hp x hx).ne'] with x' hx'
    have hne : (⟨x' 3, x' 4⟩ : ℂ) ≠ 0 := fun h => hx' (by
      have h0 := congrArg Complex.re h
      have h1 := congrArg Complex.im h
      simp only [Complex.zero_re, Complex.zero_im] at h0 h1
      rw [h0, h1]
      norm_num)
    have e : (imY x').field = Complex.arg ⟨x' 3, x' 4⟩ := rfl
    rw [e, Complex.cos_arg hne, Complex.sin_arg, Complex.norm_eq_sqrt_sq_add_sq]

/-- C107 for the squirrel cage motor, in both control spaces; in dq coordinates as long as the flux of the rotor does not vanish, since the
angle of the coordinates is the angle of the flux. -/
theorem c107_scim (mp : ImParams ℝ) (hls : 0 < mp.ls) (hlr : 0 < mp.lr) (hs : 0 < mp.sigma) (hr : 0 ≤ mp.rs)
    (hrr : 0 ≤ mp.rr) (tq : ImY → ℝ) :
    DriveApproaches (imTorque mp) (scimOde mp) (scimOde mp) imY ofImY (scimFrame tq false) (scimReset tq) statorCurr (fun _ w => t23 w) False ∧
    DqApproaches (imTorque mp) (scimOde mp) (scimOde mp) imY ofImY (scimFrame tq true) (scimReset tq) statorCurr (fun _ w => t23 w)
      (fun x => Complex.arg ⟨x 3, x 4⟩) fun x => x 3 ≠ 0 ∨ x 4 ≠ 0 := by
  have hU : ∀ (x : Fin (1 + 5) → ℝ) (w : Fin 3 → ℝ), ∃ v, (three (List.ofFn w)).map t23 = .ok v ∧ id v = t23 w := fun x w =>
    ⟨t23 w, by rw [three_ofFn]; rfl, rfl⟩
  refine ⟨drive_approaches (scim_sound mp hls hlr hs hr hrr) id (fun _ _ _ => rfl) (fun x => l3_ofFn _) lip_statorCurr hU (fun _ => hU)
      (lip_t23 fun i => LipBdd.snd i),
    dq_approaches (scim_sound mp hls hlr hs hr hrr) id (fun _ _ _ => rfl) (fun x => l3_ofFn _) lip_statorCurr hU
      (fun v x => ?_) (lip_t23 fun i => LipBdd.snd i) fun x hx => lipAt_flux hx⟩
  simp [scimFrame, l2, two_eta]
  rfl

/-- currents of stator and rotor -/
def dfimCurr (mp : ImParams ℝ) (x : Fin (1 + 5) → ℝ) : Fin 6 → ℝ :=
  let i := statorCurr x
  let r := t32 (rotorCurrent mp.lm mp.lsigr (imY x))
  ![i 0, i 1, i 2, r 0, r 1, r 2]

/-- Input of the motor for the voltages of the converters: the voltages of the rotor turn with it.  The angle of the flux, with
which the code computes, has no effect. -/
def dfimInput (eps : ℝ) (w : Fin 6 → ℝ) : Fin 4 → ℝ :=
  let us := t23 ![w 0, w 1, w 2]
  let ur := q (t23 ![w 3, w 4, w 5]) eps
  ![us 0, us 1, ur 0, ur 1]

/-- C107 for the doubly fed motor. -/
theorem c107_dfim (mp : ImParams ℝ) (hls : 0 < mp.ls) (hlr : 0 < mp.lr) (hs : 0 < mp.sigma) (hr : 0 ≤ mp.rs)
    (hrr : 0 ≤ mp.rr) (tq : ImY → ℝ) :
    DriveApproaches (imTorque mp) (dfimOde4 mp) (fun x (u : (Fin 2 → ℝ) × (Fin 2 → ℝ)) w => imOde mp x !![u.1 0, u.1 1; u.2 0, u.2 1] w)
      imY ofImY (dfimFrame mp.lm mp.lsigr tq) (dfimReset mp.lm mp.lsigr tq) (dfimCurr mp) (fun x w => dfimInput (x 5) w) False := by
  have hU : ∀ (x : Fin (1 + 5) → ℝ) (w : Fin 6 → ℝ), ∃ v, dfimU (imY x) (List.ofFn w) = .ok v ∧
      (fun u : (Fin 2 → ℝ) × (Fin 2 → ℝ) => ![u.1 0, u.1 1, u.2 0, u.2 1]) v = dfimInput (x 5) w := by
    intro x w
    refine ⟨(t23 ![w 0, w 1, w 2], q (t23 ![w 3, w 4, w 5]) (x 5)), ?_, rfl⟩
    have e : ∀ v : Fin 3 → ℝ, q (abcToDq v ((imY x).field - x 5)) (imY x).field = q (t23 v) (x 5) := fun v => by
      unfold abcToDq qInv
      rw [c32_q_add]
      congr 1
      ring
    rw [← e]
    simp [dfimU, List.ofFn_succ, three, Bind.bind, Except.bind, imY]
  refine drive_approaches (dfim_sound mp hls hlr hs hr hrr)
    (fun u : (Fin 2 → ℝ) × (Fin 2 → ℝ) => ![u.1 0, u.1 1, u.2 0, u.2 1]) (fun _ _ _ => rfl)
    (fun x => by simp [dfimFrame, dfimCurr, l3, List.ofFn_succ, statorCurr, imY]) ?_ hU (fun _ => hU) ?_
  · have h := lip_statorCurr
    have h' : ∀ i, LipBdd fun x : Fin (1 + 5) → ℝ => t32 (rotorCurrent mp.lm mp.lsigr (imY x)) i := lip_t32 (lip_two
      (((LipBdd.const _).mul (LipBdd.proj 3)).sub ((LipBdd.const _).mul (LipBdd.proj 1)))
      (((LipBdd.const _).mul (LipBdd.proj 4)).sub ((LipBdd.const _).mul (LipBdd.proj 2))))
    refine LipBdd.pi fun i => ?_
    fin_cases i
    · exact h.entry 0
    · exact h.entry 1
    · exact h.entry 2
    · exact h' 0
    · exact h' 1
    · exact h' 2
  · have h := lip_t23 (E := (Fin (1 + 5) → ℝ) × (Fin 6 → ℝ)) (lip_three (LipBdd.snd 0) (LipBdd.snd 1) (LipBdd.snd 2))
    have h' := lip_t23 (E := (Fin (1 + 5) → ℝ) × (Fin 6 → ℝ)) (lip_three (LipBdd.snd 3) (LipBdd.snd 4) (LipBdd.snd 5))
    have hsn : LipBdd fun x : (Fin (1 + 5) → ℝ) × (Fin 6 → ℝ) => Real.sin (x.1 5) := lip_sin (LipBdd.fst 5)
    have hcs : LipBdd fun x : (Fin (1 + 5) → ℝ) × (Fin 6 → ℝ) => Real.cos (x.1 5) := lip_cos (LipBdd.fst 5)
    refine LipBdd.pi fun i => ?_
    fin_cases i
    · exact h.entry 0
    · exact h.entry 1
    · exact (hcs.mul (h'.entry 0)).sub (hsn.mul (h'.entry 1))
    · exact (hsn.mul (h'.entry 0)).add (hcs.mul (h'.entry 1))

/-! ## Converters -/

/-- The converters `pw` do what `M` says, which does not depend on the values of currents other than through their signs, and switch
within the steps if sampling and interlocking time are not longer than these. -/
def Serves {A C D : Type} {n : ℕ} (pw : Power A C) (M : Machine D A n) (legal : A → Prop) (holds : C → D → Prop) (tau il : ℝ) : Prop :=
  Realises pw M legal holds ∧ Regular M ∧ ∀ d, 0 ≤ tau → tau ≤ d → 0 ≤ il → il ≤ d → SwitchesWithin M d

/-- All switching happens at the ends of the steps. -/
def SwitchesOnce {A D : Type} {n : ℕ} (M : Machine D A n) (tau : ℝ) : Prop := ∀ δ a, M.times δ a = [tau]

theorem smooth_fits {A : Type} {n : ℕ} {tau d : ℝ} {out : A → (Fin n → ℝ) → Fin n → ℝ} {sup : A → (Fin n → ℝ) → ℝ} (h0 : 0 ≤ tau)
    (h : tau ≤ d) : SwitchesWithin (smooth tau out sup) d := by
  intro δ a o ho
  rw [show o = tau from List.mem_singleton.1 ho]
  exact ⟨h0, h⟩

theorem legTimes_fits {tau il d : ℝ} (h0 : 0 ≤ tau) (h : tau ≤ d) (h1 : 0 ≤ il) (h2 : il ≤ d) {s a : ℕ} {o : ℝ}
    (ho : o ∈ legTimes tau il s a) : 0 ≤ o ∧ o ≤ d := by
  unfold legTimes at ho
  split_ifs at ho
  · rcases List.mem_cons.1 ho with rfl | ho
    · exact ⟨h1, h2⟩
    · rw [List.mem_singleton.1 ho]; exact ⟨h0, h⟩
  · rw [List.mem_singleton.1 ho]; exact ⟨h0, h⟩

theorem legTimes_plain (tau : ℝ) (s a : ℕ) : legTimes tau 0 s a = [tau] := by
  unfold legTimes Waits
  simp

theorem sortedSet_same (tau : ℝ) : sortedSet [tau, tau] = [tau] := by simp [sortedSet]

theorem legNext_plain (tau : ℝ) (s a : ℕ) (o : ℝ) : legNext tau 0 s a o = a := by
  unfold legNext Waits
  simp

theorem legOut_closed {s : ℕ} (h : s ≠ 0) (i j : ℝ) : legOut s i = legOut s j := by simp [legOut, h]

theorem fourLegs_ne (a : ℕ) : (fourLegs a).1 ≠ 0 ∧ (fourLegs a).2 ≠ 0 := by
  unfold fourLegs
  split_ifs <;> norm_num

theorem b6Legs_ne (a : ℕ) (k : Fin 3) : b6Legs a k ≠ 0 := by
  unfold b6Legs
  split_ifs <;> norm_num

/-- C107: the converters the theorems apply to, what they deliver, and where their voltages do not jump. -/
theorem c107_converters (tau il : ℝ) :
    -- continuous converters
    Serves contPower (smooth tau cOneOut cOneSup) (fun a => a.length = 1) (fun c _ => IsCOne tau c) tau il ∧
    Serves contPower (smooth tau (cTwoOut tau il) (cTwoSup tau il)) (fun a => a.length = 1) (fun c _ => IsCTwo tau il c) tau il ∧
    Serves contPower (smooth tau (cFourOut tau il) (cFourSup tau il)) (fun a => a.length = 1) (fun c _ => IsCFour tau il c) tau il ∧
    Serves contPower (smooth tau (cB6Out tau il) (cB6Sup tau il)) (fun a => a.length = 3) (fun c _ => IsCB6 tau il c) tau il ∧
    -- finite converters
    Serves finitePower (fOne tau) (fun a => a < 2) (fun c _ => IsFOne tau c) tau il ∧
    Serves finitePower (fTwo tau il) (fun a => a < 3) (IsFTwo tau il) tau il ∧
    Serves finitePower (fFour tau il) (fun a => a < 4) (IsFFour tau il) tau il ∧
    Serves finitePower (fB6 tau il) (fun a => a < 8) (IsFB6 tau il) tau il ∧
    -- without interlocking time there are no switching times within the steps and the voltages do not jump
    (SwitchesOnce (fTwo tau 0) tau ∧ SwitchesOnce (fFour tau 0) tau ∧ SwitchesOnce (fB6 tau 0) tau) ∧
    (∀ a i, Steady (cTwoOut tau 0 a) i) ∧ (∀ a i, Steady (cFourOut tau 0 a) i) ∧ (∀ a i, Steady (cB6Out tau 0 a) i) ∧
    (∀ s a o i, a ≠ 0 → Steady ((fTwo tau 0).out s a o) i) ∧ (∀ s a o i, Steady ((fFour tau 0).out s a o) i) ∧
    (∀ s a o i, Steady ((fB6 tau 0).out s a o) i) ∧
    -- with it, and in converters with diodes, they do not jump while currents flow
    (∀ (n : ℕ) (A D : Type) (M : Machine D A n), Regular M → ∀ δ a o i, (∀ k, i k ≠ 0) → Steady (M.out δ a o) i) := by
  refine ⟨⟨cOne_realises tau, cOne_regular tau, fun d h0 h1 _ _ => smooth_fits h0 h1⟩,
    ⟨cTwo_realises tau il, cTwo_regular tau il, fun d h0 h1 _ _ => smooth_fits h0 h1⟩,
    ⟨cFour_realises tau il, cFour_regular tau il, fun d h0 h1 _ _ => smooth_fits h0 h1⟩,
    ⟨cB6_realises tau il, cB6_regular tau il, fun d h0 h1 _ _ => smooth_fits h0 h1⟩,
    ⟨fOne_realises tau, fOne_regular tau, fun d h0 h1 _ _ => smooth_fits h0 h1⟩,
    ⟨fTwo_realises tau il, fTwo_regular tau il, fun d h0 h1 h2 h3 δ a o ho => legTimes_fits h0 h1 h2 h3 ho⟩,
    ⟨fFour_realises tau il, fFour_regular tau il, fun d h0 h1 h2 h3 δ a o ho => ?_⟩,
    ⟨fB6_realises tau il, fB6_regular tau il, fun d h0 h1 h2 h3 δ a o ho => ?_⟩, ⟨fun δ a => ?_, fun δ a => ?_, fun δ a => ?_⟩,
    fun _ _ => steady_of_const (fun i j => ?_) _, fun _ _ => steady_of_const (fun i j => ?_) _,
    fun _ _ => steady_of_const (fun i j => ?_) _, fun _ a _ _ ha => steady_of_const (fun i j => ?_) _,
    fun _ a _ _ => steady_of_const (fun i j => ?_) _, fun _ a _ _ => steady_of_const (fun i j => ?_) _,
    fun n A D M h δ a o i hi => h.steady δ a o hi⟩
  · rcases List.mem_append.1 (mem_sortedSet.1 ho) with h | h <;> exact legTimes_fits h0 h1 h2 h3 h
  · rcases List.mem_append.1 (mem_sortedSet.1 ho) with h | h
    · rcases List.mem_append.1 h with h | h <;> exact legTimes_fits h0 h1 h2 h3 h
    · exact legTimes_fits h0 h1 h2 h3 h
  · exact legTimes_plain _ _ _
  · simp only [fFour, legTimes_plain]
    exact sortedSet_same tau
  · simp only [fB6, legTimes_plain]
    simp [sortedSet]
  · funext k; simp only [cTwoOut, dead_zero]
  · funext k; simp only [cFourOut, dead_zero]
  · funext k; simp only [cB6Out, dead_zero]
  · funext k; simp only [fTwo, legNext_plain]; exact legOut_closed ha _ _
  · funext k
    simp only [fFour, legNext_plain]
    rw [legOut_closed (fourLegs_ne a).1 (i 0) (j 0), legOut_closed (fourLegs_ne a).2 (-i 0) (-j 0)]
  · funext k
    simp only [fB6, legNext_plain]
    rw [legOut_closed (b6Legs_ne a k) (i k) (j k)]

/-- C107: two converters of these kinds, as doubly fed motors, externally excited synchronous motors and externally excited DC motors
have. -/
theorem c107_pairs {n0 n1 : ℕ} {D0 D1 : Type} {tau il : ℝ} :
    (∀ (M0 : Machine D0 (List ℝ) n0) (M1 : Machine D1 (List ℝ) n1) holds0 holds1,
      Serves contPower M0 (fun a => a.length = n0) holds0 tau il → Serves contPower M1 (fun a => a.length = n1) holds1 tau il →
      (∀ c s, holds0 c s → c.dim = n0) → (∀ c s, holds1 c s → c.dim = n1) →
      Serves contMulti (contPair M0 M1) (fun a => a.length = n0 + n1)
        (fun cs s => ∃ c0 c1, cs = [c0, c1] ∧ holds0 c0 s.1 ∧ holds1 c1 s.2) tau il ∧
      (SwitchesOnce M0 tau → SwitchesOnce M1 tau → SwitchesOnce (contPair M0 M1) tau)) ∧
    (∀ (M0 : Machine D0 ℕ n0) (M1 : Machine D1 ℕ n1) l0 l1 holds0 holds1,
      Serves finitePower M0 l0 holds0 tau il → Serves finitePower M1 l1 holds1 tau il →
      (∀ c s, holds0 c s → c.dim = n0) → (∀ c s, holds1 c s → c.dim = n1) →
      Serves finiteMulti (finitePair M0 M1) (fun a => ∃ a0 a1, a = [a0, a1] ∧ l0 a0 ∧ l1 a1)
        (fun cs s => ∃ c0 c1, cs = [c0, c1] ∧ holds0 c0 s.1 ∧ holds1 c1 s.2) tau il ∧
      (SwitchesOnce M0 tau → SwitchesOnce M1 tau → SwitchesOnce (finitePair M0 M1) tau)) := by
  have hf : ∀ {A A0 A1 : Type} {f0 : A → A0} {f1 : A → A1} {M0 : Machine D0 A0 n0} {M1 : Machine D1 A1 n1} {d : ℝ},
      SwitchesWithin M0 d → SwitchesWithin M1 d → SwitchesWithin (pair f0 f1 M0 M1) d := fun h0 h1 δ a o ho => by
    rcases List.mem_append.1 (mem_sortedSet.1 ho) with h | h
    · exact h0 _ _ _ h
    · exact h1 _ _ _ h
  have hs : ∀ {A A0 A1 : Type} {f0 : A → A0} {f1 : A → A1} {M0 : Machine D0 A0 n0} {M1 : Machine D1 A1 n1},
      SwitchesOnce M0 tau → SwitchesOnce M1 tau → SwitchesOnce (pair f0 f1 M0 M1) tau := fun h0 h1 δ a => by
    simp only [pair, h0 _ _, h1 _ _]
    exact sortedSet_same tau
  exact ⟨fun M0 M1 k0 k1 h0 h1 d0 d1 => ⟨⟨contPair_realises h0.1 h1.1 d0 d1, pair_regular h0.2.1 h1.2.1,
      fun d a b c e => hf (h0.2.2 d a b c e) (h1.2.2 d a b c e)⟩, hs⟩,
    fun M0 M1 l0 l1 k0 k1 h0 h1 d0 d1 => ⟨⟨finitePair_realises h0.1 h1.1 d0 d1, pair_regular h0.2.1 h1.2.1,
      fun d a b c e => hf (h0.2.2 d a b c e) (h1.2.2 d a b c e)⟩, hs⟩⟩

/-- C107: the supplies the theorems apply to. -/
theorem c107_supplies (d : ℝ) :
    (∀ u, Supplies (idealSource u) (fun _ => True) d (fun _ _ _ => u) u) ∧
    (∀ draw A f phi, Supplies (acSource draw) (fun s => s.maxAmp = A ∧ s.f = f ∧ (if s.fixed then s.phi else draw * 2 * Real.pi) = phi) d
      (fun k _ _ => A * Real.sin (2 * Real.pi * f * (k * d) + phi)) (A * Real.sin phi)) ∧
    (∀ u0 r c, Supplies rcSource (fun s => s.u0 = u0 ∧ s.r = r ∧ s.c = c) d (rcVoltage u0 r c d) u0) :=
  ⟨fun u => ideal_supplies u d, fun draw A f phi => ac_supplies draw A f phi d, fun u0 r c => rc_supplies u0 r c d⟩

/-- new converters are of these kinds -/
example (tau il : ℝ) : IsCFour tau il (.four (CFour.new tau il)) ∧ IsCB6 tau il (.b6 (CB6.new tau il)) :=
  ⟨⟨_, rfl, ⟨rfl, rfl⟩, rfl, rfl⟩, ⟨_, rfl, ⟨rfl, rfl⟩, ⟨rfl, rfl⟩, rfl, rfl⟩⟩

/-- the converters of a doubly fed motor -/
example (tau il : ℝ) : Serves contMulti (contPair (smooth tau (cB6Out tau il) (cB6Sup tau il)) (smooth tau (cB6Out tau il) (cB6Sup tau il)))
    (fun a => a.length = 6) (fun cs _ => ∃ c0 c1, cs = [c0, c1] ∧ IsCB6 tau il c0 ∧ IsCB6 tau il c1) tau il :=
  (c107_pairs.1 _ _ _ _ (c107_converters tau il).2.2.2.1 (c107_converters tau il).2.2.2.1 (by rintro c _ ⟨c', rfl, -⟩; rfl)
    (by rintro c _ ⟨c', rfl, -⟩; rfl)).1

/-- a step with two stages: both half bridges wait -/
example : (fFour 1 (1 / 10)).times (1, 2) 2 = [1 / 10, 1] := by
  have h1 : legTimes 1 (1 / 10) 1 2 = [1 / 10, 1] := if_pos (by unfold Waits; norm_num)
  have h2 : legTimes 1 (1 / 10) 2 1 = [1 / 10, 1] := if_pos (by unfold Waits; norm_num)
  simp only [fFour, fourLegs, h1, h2, OfNat.ofNat_ne_zero, OfNat.ofNat_ne_one, if_false, if_true]
  exact (sortedSet_pairwise _).eq_of_mem_iff (by norm_num) fun x => by rw [mem_sortedSet]; simp; tauto

theorem passes_single {E U A D : Type} [NormedAddCommGroup E] {n : ℕ} {M : Machine D A n} {up : ℕ → ℝ → ℝ → ℝ}
    {inp : E → (Fin n → ℝ) → U} {curr : E → Fin n → ℝ} {d : ℝ} {δ : D} {as : ℕ → A} {k : ℕ} {s : ℝ → E} {T : ℝ}
    (h : (M.times (positions M as δ k) (as k)).dropLast = [])
    (hs : Steady (M.out (positions M as δ k) (as k) 0) (curr (s T))) : Passes s T (plan M up inp curr d δ as k) := by
  unfold plan
  rw [h]
  exact ⟨hs, trivial⟩

/-- Two steps of a permanently excited motor with a finite four quadrant converter with interlocking time and a supply with resistance
and capacitor: the simulated currents converge as the number of sub-steps grows. -/
example : ∃ i : ℝ, Tendsto (fun N : ℕ => episode
      (eulerParts finitePower rcSource (.poly 0 1 0 1 1 []) (permExTorque ⟨1, 1, 1⟩)
        (fun x (u : List ℝ) w => permExOde ⟨1, 1, 1⟩ x (fun i => u.getD i 0) w) none dcY ofDcY)
      (asIs (dcFrame id (fun l => l.getD 0 0) [0] 1 1)) (dcResetReport (fun l => l.getD 0 0) [0]) 1 [] ⟨[0], [0]⟩ (fun _ => 1)
      ⟨0, 0, ⟨0, fun _ => 0, N + 1⟩, .four (FourQC.new 1 (1 / 10)), GEM.Supply.RC.new 48 1 1⟩ 2 1) atTop (𝓝 i) := by
  have hc := (c107_converters 1 (1 / 10)).2.2.2.2.2.2.1
  obtain ⟨s, z, -, -, -, -, h⟩ := (c107_dc ⟨1, 1, 1, 1, 1⟩ ⟨1, 1, 1⟩ one_pos one_pos zero_le_one zero_le_one one_pos
    zero_le_one).2.2.2 (fun l => l.getD 0 0) [0] 1 1 _ _ _ _ finitePower _ _ _ hc.1 hc.2.1 rcSource _ 1 _ _ ((c107_supplies 1).2.2 48 1 1)
    one_pos (hc.2.2 1 zero_le_one le_rfl (by norm_num) (by norm_num)) (.poly 0 1 0 1 1 [])
    ⟨le_rfl, zero_le_one, le_rfl, one_pos, one_pos, by simp⟩ trivial none [] ⟨[0], [0]⟩ (0, 0) (fun _ => 1)
    (fun _ => by norm_num) (fun h => h.elim)
  have hp1 : positions (fFour 1 (1 / 10)) (fun _ => 1) (0, 0) 1 = (1, 2) := by
    simp [positions, fFour, fourLegs, legNext, Waits]
  have hp : ∀ k < 2, ((fFour 1 (1 / 10)).times (positions (fFour 1 (1 / 10)) (fun _ => 1) (0, 0) k) 1).dropLast = [] ∧
      ∀ i, Steady ((fFour 1 (1 / 10)).out (positions (fFour 1 (1 / 10)) (fun _ => 1) (0, 0) k) 1 0) i := by
    intro k hk
    obtain rfl | rfl : k = 0 ∨ k = 1 := by omega
    · refine ⟨?_, fun i => steady_of_const (fun i j => ?_) i⟩
      · simp [positions, fFour, fourLegs, legTimes, Waits, sortedSet]
      · funext x
        simp [positions, fFour, fourLegs, legNext, Waits, legOut]
    · rw [hp1]
      refine ⟨?_, fun i => steady_of_const (fun i j => ?_) i⟩
      · simp [fFour, fourLegs, legTimes, Waits, sortedSet]
      · funext x
        simp [fFour, fourLegs, legNext, Waits, legOut]
  obtain ⟨C, hC⟩ := h 2 fun k hk => passes_single (hp k hk).1 ((hp k hk).2 _)
  refine ⟨s ((2 : ℕ) * 1) 1, ?_⟩
  rw [tendsto_iff_norm_sub_tendsto_zero]
  have hz : Tendsto (fun N : ℕ => C / ((N + 1 : ℕ) : ℝ)) atTop (𝓝 0) :=
    (tendsto_add_atTop_iff_nat 1).2 (tendsto_const_div_atTop_nhds_zero_nat C)
  refine squeeze_zero (fun _ => norm_nonneg _) (fun N => ?_) hz
  exact hC ⟨⟨0, 0, ⟨0, fun _ => 0, N + 1⟩, .four (FourQC.new 1 (1 / 10)), GEM.Supply.RC.new 48 1 1⟩,
    ⟨_, rfl, ⟨rfl, rfl, rfl, by norm_num⟩, rfl, rfl, rfl, by norm_num⟩, rfl, rfl, rfl⟩ (by simp) 1

end

end GEM.Props
