import Verif.Graph.HomOn

/-!
# Three renderings side by side

Three histories of the system (`Verif.Graph.SystemModel`) with the same graph operations but different processors and
messages. If a relation between three processors, inputs and outputs is kept by processing, summing and messages, it
holds for the sounds of the three histories. (`/repo/src/render/graph.rs` treats processors and signals as black boxes.)
-/

namespace Verif.Render

variable {P S M : Type}

/-- A relation between three renderings. -/
structure Trio (sem : Sem P S M) where
  okP : Cfg → P → P → P → Prop
  okI : Cfg → S → S → S → Prop
  okO : S → S → S → Prop
  okM : M → M → M → Prop
  okC : Cfg → Prop
  okP_okC : ∀ c p q r, okP c p q r → okC c
  process : ∀ c p q r (ins outs : List (S × S × S)) (ps : Nat → Option (S × S × S)), okP c p q r →
    (∀ x ∈ ins, okI c x.1 x.2.1 x.2.2) → (∀ x ∈ outs, okO x.1 x.2.1 x.2.2) →
    (sem.process p (ins.map (·.1)) (outs.map (·.1)) (fun j => (ps j).map (·.1)) = none ∧
      sem.process q (ins.map (·.2.1)) (outs.map (·.2.1)) (fun j => (ps j).map (·.2.1)) = none ∧
      sem.process r (ins.map (·.2.2)) (outs.map (·.2.2)) (fun j => (ps j).map (·.2.2)) = none) ∨
    ∃ a b d, sem.process p (ins.map (·.1)) (outs.map (·.1)) (fun j => (ps j).map (·.1)) = some a ∧
      sem.process q (ins.map (·.2.1)) (outs.map (·.2.1)) (fun j => (ps j).map (·.2.1)) = some b ∧
      sem.process r (ins.map (·.2.2)) (outs.map (·.2.2)) (fun j => (ps j).map (·.2.2)) = some d ∧
      okP c a.1 b.1 d.1 ∧ ∀ (k : Nat) x y z, a.2.1[k]? = some x → b.2.1[k]? = some y → d.2.1[k]? = some z → okO x y z
  onmessage : ∀ c p q r m m' m'', okP c p q r → okM m m' m'' →
    (sem.onmessage p m = none ∧ sem.onmessage q m' = none ∧ sem.onmessage r m'' = none) ∨
    ∃ a b d, sem.onmessage p m = some a ∧ sem.onmessage q m' = some b ∧ sem.onmessage r m'' = some d ∧ okP c a b d
  silence_okI : ∀ c, okI c sem.silence sem.silence sem.silence
  silence_okO : okO sem.silence sem.silence sem.silence
  add : ∀ c x y z x' y' z', okC c → okI c x y z → okO x' y' z' →
    okI c (sem.add c x x') (sem.add c y y') (sem.add c z z')

/-- three signals lists as one -/
def zip3 (a b d : List S) : List (S × S × S) := a.zip (b.zip d)

theorem zip3_length {a b d : List S} (h1 : b.length = a.length) (h2 : d.length = a.length) :
    (zip3 a b d).length = a.length := by simp [zip3, h1, h2]

theorem zip3_one {a b d : List S} (h1 : b.length = a.length) (h2 : d.length = a.length) :
    (zip3 a b d).map (·.1) = a := by
  unfold zip3
  rw [show (fun x : S × S × S => x.1) = Prod.fst from rfl, List.map_fst_zip]
  simp [h1, h2]

theorem zip3_two {a b d : List S} (h1 : b.length = a.length) (h2 : d.length = a.length) :
    (zip3 a b d).map (·.2.1) = b := by
  unfold zip3
  rw [show (fun x : S × S × S => x.2.1) = Prod.fst ∘ Prod.snd from rfl, ← List.map_map, List.map_snd_zip,
    List.map_fst_zip]
  all_goals simp [h1, h2]

theorem zip3_three {a b d : List S} (h1 : b.length = a.length) (h2 : d.length = a.length) :
    (zip3 a b d).map (·.2.2) = d := by
  unfold zip3
  rw [show (fun x : S × S × S => x.2.2) = Prod.snd ∘ Prod.snd from rfl, ← List.map_map, List.map_snd_zip,
    List.map_snd_zip]
  all_goals simp [h1, h2]

theorem zip3_mem {a b d : List S} {x : S × S × S} (h : x ∈ zip3 a b d) :
    ∃ k : Nat, a[k]? = some x.1 ∧ b[k]? = some x.2.1 ∧ d[k]? = some x.2.2 := by
  obtain ⟨k, hk⟩ := List.mem_iff_getElem?.1 h
  refine ⟨k, ?_⟩
  unfold zip3 at hk
  rw [List.getElem?_zip_eq_some, List.getElem?_zip_eq_some] at hk
  exact hk

/-- the three renderings as one -/
def three (sem : Sem P S M) : Sem (P × P × P) (S × S × S) (M × M × M) where
  process p ins outs ps :=
    match sem.process p.1 (ins.map (·.1)) (outs.map (·.1)) (fun j => (ps j).map (·.1)),
        sem.process p.2.1 (ins.map (·.2.1)) (outs.map (·.2.1)) (fun j => (ps j).map (·.2.1)),
        sem.process p.2.2 (ins.map (·.2.2)) (outs.map (·.2.2)) (fun j => (ps j).map (·.2.2)) with
    | some a, some b, some d => some ((a.1, b.1, d.1), zip3 a.2.1 b.2.1 d.2.1, a.2.2)
    | _, _, _ => none
  process_len p ins outs ps p' outs' t h := by
    split at h
    · rename_i a b d ha hb hd
      simp only [Option.some.injEq, Prod.mk.injEq] at h
      have la := sem.process_len _ _ _ _ _ _ _ ha
      have lb := sem.process_len _ _ _ _ _ _ _ hb
      have ld := sem.process_len _ _ _ _ _ _ _ hd
      rw [List.length_map] at la lb ld
      rw [← h.2.1, zip3_length (by rw [lb, la]) (by rw [ld, la]), la]
    · cases h
  onmessage p m :=
    match sem.onmessage p.1 m.1, sem.onmessage p.2.1 m.2.1, sem.onmessage p.2.2 m.2.2 with
    | some a, some b, some d => some (a, b, d)
    | _, _, _ => none
  sideEffects p := sem.sideEffects p.1
  silence := (sem.silence, sem.silence, sem.silence)
  add c x y := (sem.add c x.1 y.1, sem.add c x.2.1 y.2.1, sem.add c x.2.2 y.2.2)

variable {sem : Sem P S M}

theorem Trio.three_process (t : Trio sem) (c : Cfg) (p : P × P × P) (ins outs : List (S × S × S))
    (ps : Nat → Option (S × S × S)) (hp : t.okP c p.1 p.2.1 p.2.2) (hi : ∀ x ∈ ins, t.okI c x.1 x.2.1 x.2.2)
    (ho : ∀ x ∈ outs, t.okO x.1 x.2.1 x.2.2) :
    ((sem.process p.1 (ins.map (·.1)) (outs.map (·.1)) (fun j => (ps j).map (·.1))).map (fun r => (r.1, r.2.1)) =
        ((three sem).process p ins outs ps).map (fun r => (r.1.1, r.2.1.map (·.1))) ∧
      (sem.process p.2.1 (ins.map (·.2.1)) (outs.map (·.2.1)) (fun j => (ps j).map (·.2.1))).map (fun r => (r.1, r.2.1)) =
        ((three sem).process p ins outs ps).map (fun r => (r.1.2.1, r.2.1.map (·.2.1))) ∧
      (sem.process p.2.2 (ins.map (·.2.2)) (outs.map (·.2.2)) (fun j => (ps j).map (·.2.2))).map (fun r => (r.1, r.2.1)) =
        ((three sem).process p ins outs ps).map (fun r => (r.1.2.2, r.2.1.map (·.2.2)))) ∧
    ∀ r, (three sem).process p ins outs ps = some r →
      t.okP c r.1.1 r.1.2.1 r.1.2.2 ∧ ∀ x ∈ r.2.1, t.okO x.1 x.2.1 x.2.2 := by
  simp only [three]
  rcases t.process c p.1 p.2.1 p.2.2 ins outs ps hp hi ho with ⟨h1, h2, h3⟩ | ⟨a, b, d, h1, h2, h3, hk, hok⟩
  · rw [h1, h2, h3]
    exact ⟨⟨rfl, rfl, rfl⟩, fun r hr => by cases hr⟩
  · rw [h1, h2, h3]
    have la := sem.process_len _ _ _ _ _ _ _ h1
    have lb := sem.process_len _ _ _ _ _ _ _ h2
    have ld := sem.process_len _ _ _ _ _ _ _ h3
    rw [List.length_map] at la lb ld
    have e1 : b.2.1.length = a.2.1.length := by rw [lb, la]
    have e2 : d.2.1.length = a.2.1.length := by rw [ld, la]
    simp only [Option.map_some, zip3_one e1 e2, zip3_two e1 e2, zip3_three e1 e2]
    refine ⟨⟨trivial, trivial, trivial⟩, fun r hr => ?_⟩
    cases hr
    refine ⟨hk, fun x hx => ?_⟩
    obtain ⟨k, h1, h2, h3⟩ := zip3_mem hx
    exact hok k _ _ _ h1 h2 h3

theorem Trio.three_message (t : Trio sem) (c : Cfg) (p : P × P × P) (m : M × M × M) (hp : t.okP c p.1 p.2.1 p.2.2)
    (hm : t.okM m.1 m.2.1 m.2.2) :
    (sem.onmessage p.1 m.1 = ((three sem).onmessage p m).map (·.1) ∧
      sem.onmessage p.2.1 m.2.1 = ((three sem).onmessage p m).map (·.2.1) ∧
      sem.onmessage p.2.2 m.2.2 = ((three sem).onmessage p m).map (·.2.2)) ∧
    ∀ r, (three sem).onmessage p m = some r → t.okP c r.1 r.2.1 r.2.2 := by
  simp only [three]
  rcases t.onmessage c p.1 p.2.1 p.2.2 _ _ _ hp hm with ⟨h1, h2, h3⟩ | ⟨a, b, d, h1, h2, h3, hok⟩
  · rw [h1, h2, h3]
    exact ⟨⟨rfl, rfl, rfl⟩, fun r hr => by cases hr⟩
  · rw [h1, h2, h3]
    exact ⟨⟨rfl, rfl, rfl⟩, fun r hr => by cases hr; exact hok⟩

/-- the first of the three -/
def Trio.one (t : Trio sem) : HomOn (three sem) sem where
  fP := (·.1)
  fS := (·.1)
  fM := (·.1)
  okP c p := t.okP c p.1 p.2.1 p.2.2
  okI c x := t.okI c x.1 x.2.1 x.2.2
  okO x := t.okO x.1 x.2.1 x.2.2
  okM m := t.okM m.1 m.2.1 m.2.2
  okC := t.okC
  process c p ins outs ps hp hi ho := (t.three_process c p ins outs ps hp hi ho).1.1
  process_ok c p ins outs ps r hp hi ho := (t.three_process c p ins outs ps hp hi ho).2 r
  onmessage c p m hp hm := (t.three_message c p m hp hm).1.1
  onmessage_ok c p m p' hp hm := (t.three_message c p m hp hm).2 p'
  silence := rfl
  silence_okI := t.silence_okI
  silence_okO := t.silence_okO
  okP_okC c p := t.okP_okC c _ _ _
  add _ _ _ _ _ _ := rfl
  add_ok c a b hc ha hb := t.add c _ _ _ _ _ _ hc ha hb

/-- the second of the three -/
def Trio.two (t : Trio sem) : HomOn (three sem) sem where
  fP := (·.2.1)
  fS := (·.2.1)
  fM := (·.2.1)
  okP c p := t.okP c p.1 p.2.1 p.2.2
  okI c x := t.okI c x.1 x.2.1 x.2.2
  okO x := t.okO x.1 x.2.1 x.2.2
  okM m := t.okM m.1 m.2.1 m.2.2
  okC := t.okC
  process c p ins outs ps hp hi ho := (t.three_process c p ins outs ps hp hi ho).1.2.1
  process_ok c p ins outs ps r hp hi ho := (t.three_process c p ins outs ps hp hi ho).2 r
  onmessage c p m hp hm := (t.three_message c p m hp hm).1.2.1
  onmessage_ok c p m p' hp hm := (t.three_message c p m hp hm).2 p'
  silence := rfl
  silence_okI := t.silence_okI
  silence_okO := t.silence_okO
  okP_okC c p := t.okP_okC c _ _ _
  add _ _ _ _ _ _ := rfl
  add_ok c a b hc ha hb := t.add c _ _ _ _ _ _ hc ha hb

/-- the third of the three -/
def Trio.last (t : Trio sem) : HomOn (three sem) sem where
  fP := (·.2.2)
  fS := (·.2.2)
  fM := (·.2.2)
  okP c p := t.okP c p.1 p.2.1 p.2.2
  okI c x := t.okI c x.1 x.2.1 x.2.2
  okO x := t.okO x.1 x.2.1 x.2.2
  okM m := t.okM m.1 m.2.1 m.2.2
  okC := t.okC
  process c p ins outs ps hp hi ho := (t.three_process c p ins outs ps hp hi ho).1.2.2
  process_ok c p ins outs ps r hp hi ho := (t.three_process c p ins outs ps hp hi ho).2 r
  onmessage c p m hp hm := (t.three_message c p m hp hm).1.2.2
  onmessage_ok c p m p' hp hm := (t.three_message c p m hp hm).2 p'
  silence := rfl
  silence_okI := t.silence_okI
  silence_okO := t.silence_okO
  okP_okC c p := t.okP_okC c _ _ _
  add _ _ _ _ _ _ := rfl
  add_ok c a b hc ha hb := t.add c _ _ _ _ _ _ hc ha hb

/-- Three steps that do the same to the graph, with related processors and messages, without drops and changes of
channel configurations. -/
inductive Trio.Ops (t : Trio sem) : Op P M → Op P M → Op P M → Prop
  | acquire : t.Ops .acquire .acquire .acquire
  | recv : t.Ops .recv .recv .recv
  | quantum : t.Ops .quantum .quantum .quantum
  | breaker (x : Handle) : t.Ops (.breaker x) (.breaker x) (.breaker x)
  | connect (a b : Handle) (o i : Nat) : t.Ops (.connect a b o i) (.connect a b o i) (.connect a b o i)
  | connectHidden (a b : Handle) (adm : Bool) :
    t.Ops (.connectHidden a b adm) (.connectHidden a b adm) (.connectHidden a b adm)
  | disconnect (a : Handle) (o d i : Option Nat) :
    t.Ops (.disconnect a o d i) (.disconnect a o d i) (.disconnect a o d i)
  | register (id : Nat) (p q r : P) (nin nout : Nat) (c : Cfg) (h : t.okP c p q r) :
    t.Ops (.register id p nin nout c) (.register id q nin nout c) (.register id r nin nout c)
  | post (x : Handle) (m m' m'' : M) (h : t.okM m m' m'') : t.Ops (.post x m) (.post x m') (.post x m'')

theorem Trio.ops_three (t : Trio sem) {x y z : Op P M} (h : t.Ops x y z) :
    ∃ w : Op (P × P × P) (M × M × M), t.one.okOp w ∧ t.one.op w = x ∧ t.two.op w = y ∧ t.last.op w = z := by
  cases h with
  | acquire => exact ⟨.acquire, trivial, rfl, rfl, rfl⟩
  | recv => exact ⟨.recv, trivial, rfl, rfl, rfl⟩
  | quantum => exact ⟨.quantum, trivial, rfl, rfl, rfl⟩
  | breaker a => exact ⟨.breaker a, trivial, rfl, rfl, rfl⟩
  | connect a b o i => exact ⟨.connect a b o i, trivial, rfl, rfl, rfl⟩
  | connectHidden a b adm => exact ⟨.connectHidden a b adm, trivial, rfl, rfl, rfl⟩
  | disconnect a o d i => exact ⟨.disconnect a o d i, trivial, rfl, rfl, rfl⟩
  | register id p q r nin nout c h => exact ⟨.register id (p, q, r) nin nout c, h, rfl, rfl, rfl⟩
  | post a m m' m'' h => exact ⟨.post a (m, m', m''), h, rfl, rfl, rfl⟩

theorem Trio.ops_list (t : Trio sem) (l : List (Op P M × Op P M × Op P M)) (h : ∀ x ∈ l, t.Ops x.1 x.2.1 x.2.2) :
    ∃ ws : List (Op (P × P × P) (M × M × M)), (∀ w ∈ ws, t.one.okOp w) ∧ ws.map t.one.op = l.map (·.1) ∧
      ws.map t.two.op = l.map (·.2.1) ∧ ws.map t.last.op = l.map (·.2.2) := by
  induction l with
  | nil => exact ⟨[], by simp, rfl, rfl, rfl⟩
  | cons x l ih =>
    obtain ⟨w, h1, h2, h3, h4⟩ := t.ops_three (h x (by simp))
    obtain ⟨ws, k1, k2, k3, k4⟩ := ih fun y hy => h y (by simp [hy])
    refine ⟨w :: ws, ?_, by simp [h2, k2], by simp [h3, k3], by simp [h4, k4]⟩
    intro v hv
    rcases List.mem_cons.1 hv with rfl | hv
    · exact h1
    · exact k1 v hv

/-- The sounds of three such histories: either all three panic, or they have the same number of quanta, related one by
one. -/
theorem Trio.sound (t : Trio sem) {p q r : P} {cfg : Cfg} (hd : t.okP cfg p q r)
    (l : List (Op P M × Op P M × Op P M)) (h : ∀ x ∈ l, t.Ops x.1 x.2.1 x.2.2) :
    (Sys.sound sem (Sys.init sem p cfg) (l.map (·.1)) = none ∧ Sys.sound sem (Sys.init sem q cfg) (l.map (·.2.1)) = none ∧
      Sys.sound sem (Sys.init sem r cfg) (l.map (·.2.2)) = none) ∨
    ∃ a b d, Sys.sound sem (Sys.init sem p cfg) (l.map (·.1)) = some a ∧
      Sys.sound sem (Sys.init sem q cfg) (l.map (·.2.1)) = some b ∧
      Sys.sound sem (Sys.init sem r cfg) (l.map (·.2.2)) = some d ∧
      b.2.length = a.2.length ∧ d.2.length = a.2.length ∧
      ∀ (k : Nat) x y z, a.2[k]? = some x → b.2[k]? = some y → d.2[k]? = some z → t.okO x y z := by
  obtain ⟨ws, h1, h2, h3, h4⟩ := t.ops_list l h
  have hi : t.one.okSys (Sys.init (three sem) (p, q, r) cfg) := HomOn.init_ok t.one hd
  have i1 := HomOn.sys_init t.one (p, q, r) cfg
  have i2 := HomOn.sys_init t.two (p, q, r) cfg
  have i3 := HomOn.sys_init t.last (p, q, r) cfg
  have s1 := HomOn.sys_sound t.one ws h1 _ hi
  have s2 := HomOn.sys_sound t.two ws h1 _ hi
  have s3 := HomOn.sys_sound t.last ws h1 _ hi
  rw [i1, h2] at s1
  rw [i2, h3] at s2
  rw [i3, h4] at s3
  rw [show t.one.fP (p, q, r) = p from rfl] at s1
  rw [show t.two.fP (p, q, r) = q from rfl] at s2
  rw [show t.last.fP (p, q, r) = r from rfl] at s3
  rw [s1.1, s2.1, s3.1]
  cases hc : Sys.sound (three sem) (Sys.init (three sem) (p, q, r) cfg) ws with
  | none => exact .inl ⟨rfl, rfl, rfl⟩
  | some v =>
    refine .inr ⟨_, _, _, rfl, rfl, rfl, by simp, by simp, fun k x y z hx hy hz => ?_⟩
    simp only [List.getElem?_map, Option.map_eq_some_iff] at hx hy hz
    obtain ⟨u, hu, rfl⟩ := hx
    obtain ⟨u2, hu2, rfl⟩ := hy
    obtain ⟨u3, hu3, rfl⟩ := hz
    rw [hu] at hu2 hu3
    cases hu2
    cases hu3
    exact s1.2 v hc u (List.mem_of_getElem? hu)

end Verif.Render
