import Mathlib.Data.List.Basic
import Mathlib.Data.List.Nodup
import Mathlib.Data.List.Count
import Mathlib.Data.List.Perm.Subperm

/-!
# C78: ids of audio devices

Models the enumeration of devices and the choice of a device by its id: `stable_device_id`,
`cpal_device_for_id`, `enumerate_devices_sync` (`/repo/src/io/cpal.rs` l.109-186, l.564-624), the same functions of
`/repo/src/io/cubeb.rs` (l.229-249, l.598-700), `DeviceId::as_string`, `is_valid_device_id` and
`try_get_user_media_sync` (`/repo/src/media_devices/mod.rs` l.38-66, l.178-187, l.232-246), and `is_valid_sink_id`
(`/repo/src/context/online.rs` l.26-35) with its uses in `try_new` and `set_sink_id_sync`.

The hash of `DeviceId::as_string` is an arbitrary function `h`; the name of the host is constant. The ids are
decimal numbers, hence different from `""` and `"none"`. What the operating system lists does not change between
the enumeration and the use of an id, except where a theorem says so. A device of the crate `cubeb` without a
name and one of the crate `cpal` without a description are the same in the model, as are the default
configuration of `cpal` and the channel count of `cubeb` (whose failure is an error; here it is a device that
is left out, as in `cpal`).
-/

namespace Verif.Io.Devices

variable {H N I : Type} [DecidableEq I]

inductive Kind where
  | input
  | output
deriving DecidableEq

/-- A device as the operating system lists it: `handle` is the device itself; `name` is `none` if it has no
description, `channels` is `none` if it has no default configuration. -/
structure Device (H N : Type) where
  handle : H
  name : Option N
  channels : Option Nat

inductive Err where
  /-- an error of the backend -/
  | backend
  /-- the index, a `u8`, overflows: a panic, or an endless loop in a release build -/
  | overflow
deriving DecidableEq

/-- `stable_device_id`, cpal.rs l.163-186, and the loop of the enumeration, cpal.rs l.590-621 -/
def search (h : Nat → I) (seen : List I) (index : Nat) : Option I :=
  if 256 ≤ index then none
  else if h index ∈ seen then search h seen (index + 1)
  else some (h index)
termination_by 256 - index

/-- the ids that the devices get, cpal.rs l.587-623 -/
def assign (h : N → Nat → Nat → I) : List I → List (Device H N) → Except Err (List (I × Device H N))
  | _, [] => .ok []
  | seen, d :: ds =>
    match d.channels with
    | none => assign h seen ds
    | some c =>
      match d.name with
      | none => .error .backend
      | some n =>
        match search (h n c) seen 0 with
        | none => .error .overflow
        | some id =>
          match assign h (seen ++ [id]) ds with
          | .error e => .error e
          | .ok l => .ok ((id, d) :: l)

/-- `cpal_device_for_id`, cpal.rs l.109-139; `cubeb_device_for_id`, cubeb.rs l.229-249 -/
def deviceFor (h : N → Nat → Nat → I) (id : I) : List I → List (Device H N) → Except Err (Option (Device H N))
  | _, [] => .ok none
  | seen, d :: ds =>
    match d.channels with
    | none => deviceFor h id seen ds
    | some c =>
      match d.name with
      | none => .error .backend
      | some n =>
        match search (h n c) seen 0 with
        | none => .error .overflow
        | some s => if s = id then .ok (some d) else deviceFor h id (seen ++ [s]) ds

/-- What `enumerate_devices_sync` of the backends lists: inputs and outputs. In `cpal` (cpal.rs l.564-624) the
outputs avoid the ids of the inputs, in `cubeb` (cubeb.rs l.580-596) each kind is listed on its own. -/
def enumerate (cpal : Bool) (h : Kind → N → Nat → Nat → I) (ins outs : List (Device H N)) :
    Except Err (List (I × Device H N) × List (I × Device H N)) :=
  match assign (h .input) [] ins with
  | .error e => .error e
  | .ok li =>
    match assign (h .output) (if cpal then li.map (·.1) else []) outs with
    | .error e => .error e
    | .ok lo => .ok (li, lo)

/-- `AudioContextOptions::sink_id` -/
inductive Sink (I : Type) where
  /-- `""` -/
  | dflt
  /-- `"none"` -/
  | silent
  | id (i : I)

/-- `is_valid_sink_id`, online.rs l.26-35: an error of the enumeration is an empty list (media_devices l.27-32) -/
def validSink (cpal : Bool) (h : Kind → N → Nat → Nat → I) (ins outs : List (Device H N)) : Sink I → Except Err Bool
  | .dflt => .ok true
  | .silent => .ok true
  | .id i =>
    match enumerate cpal h ins outs with
    | .error .backend => .ok false
    | .error .overflow => .error .overflow
    | .ok (_, lo) => .ok (i ∈ lo.map (·.1))

/-- The device that a context plays to, online.rs (`try_new`, `set_sink_id_sync`) and `build_output`, cpal.rs
l.220-240: `none` is no device at all. The result `.error` is an error or a panic. -/
def openOutput (cpal : Bool) (h : Kind → N → Nat → Nat → I) (ins outs : List (Device H N)) (standard : Device H N)
    (s : Sink I) : Except Err (Option (Device H N)) :=
  match validSink cpal h ins outs s with
  | .error e => .error e
  | .ok false => .error .backend
  | .ok true =>
    match s with
    | .dflt => .ok (some standard)
    | .silent => .ok none
    | .id i =>
      match deviceFor (h .output) i [] outs with
      | .error e => .error e
      | .ok (some d) => .ok (some d)
      | .ok none => .ok (some standard)

/-- The device that `get_user_media_sync` records from, media_devices l.178-187, l.232-246 and cpal.rs l.396-416;
the argument is the constraint on the device id, `none` for no constraint. -/
def openInput (cpal : Bool) (h : Kind → N → Nat → Nat → I) (ins outs : List (Device H N)) (standard : Device H N) :
    Option I → Except Err (Device H N)
  | none => .ok standard
  | some i =>
    match enumerate cpal h ins outs with
    | .error .overflow => .error .overflow
    | .error .backend => .ok standard
    | .ok (li, _) =>
      if i ∈ li.map (·.1) then
        match deviceFor (h .input) i [] ins with
        | .error e => .error e
        | .ok (some d) => .ok d
        | .ok none => .ok standard
      else .ok standard

/-! ## Lemmas -/

theorem search_spec {h : Nat → I} {seen : List I} {k : Nat} {id : I} (hs : search h seen k = some id) :
    id ∉ seen ∧ ∃ i, k ≤ i ∧ i < 256 ∧ id = h i ∧ ∀ j, k ≤ j → j < i → h j ∈ seen := by
  fun_induction search h seen k with
  | case1 => cases hs
  | case2 k hk hm ih =>
    obtain ⟨h1, i, h2, h3, h4, h5⟩ := ih hs
    refine ⟨h1, i, by omega, h3, h4, fun j hj hji => ?_⟩
    by_cases h : j = k
    · rwa [h]
    · exact h5 j (by omega) hji
  | case3 k hk hm =>
    obtain rfl : h k = id := by simpa using hs
    exact ⟨hm, k, by omega, by omega, rfl, fun j h1 h2 => absurd h1 (by omega)⟩

theorem search_of {h : Nat → I} {seen : List I} {k i : Nat} (hki : k ≤ i) (hi : i < 256) (hm : h i ∉ seen)
    (hb : ∀ j, k ≤ j → j < i → h j ∈ seen) : search h seen k = some (h i) := by
  fun_induction search h seen k with
  | case1 => omega
  | case2 k hk hm' ih =>
    have : k ≠ i := fun e => hm (e ▸ hm')
    exact ih (by omega) fun j h1 h2 => hb j (by omega) h2
  | case3 k hk hm' =>
    have : k = i := by
      by_contra hne
      exact hm' (hb k (Nat.le_refl _) (by omega))
    rw [this]

/-- ids that `h` never makes can be left out of the list of ids in use -/
theorem search_congr {h : Nat → I} {a b : List I} (hab : ∀ i, h i ∈ a ↔ h i ∈ b) (k : Nat) :
    search h a k = search h b k := by
  fun_induction search h a k with
  | case1 k hk => rw [search, if_pos hk]
  | case2 k hk hm ih =>
    rw [ih]
    conv_rhs => rw [search, if_neg hk, if_pos ((hab k).1 hm)]
  | case3 k hk hm => rw [search, if_neg hk, if_neg (fun h => hm ((hab k).2 h))]

theorem assign_congr {h : N → Nat → Nat → I} {a b : List I} (hab : ∀ n c i, h n c i ∈ a ↔ h n c i ∈ b)
    (ds : List (Device H N)) : assign h a ds = assign h b ds := by
  induction ds generalizing a b with
  | nil => rfl
  | cons d ds ih =>
    simp only [assign]
    rcases d.channels with - | c
    · exact ih hab
    · rcases d.name with - | n
      · rfl
      · simp only [search_congr (hab n c)]
        rcases search (h n c) b 0 with - | id
        · rfl
        · simp only
          rw [ih (a := a ++ [id]) (b := b ++ [id])]
          intro n c i
          simp [hab n c i]

theorem assign_nodup {h : N → Nat → Nat → I} {seen : List I} {ds : List (Device H N)}
    {l : List (I × Device H N)} (ha : assign h seen ds = .ok l) :
    (l.map (·.1)).Nodup ∧ ∀ id ∈ l.map (·.1), id ∉ seen := by
  induction ds generalizing seen l with
  | nil =>
    obtain rfl : [] = l := by simpa [assign] using ha
    simp
  | cons d ds ih =>
    simp only [assign] at ha
    split at ha
    · exact ih ha
    · split at ha
      · cases ha
      · split at ha
        · cases ha
        · rename_i id hs
          split at ha
          · cases ha
          · rename_i l' hl
            obtain rfl : (id, d) :: l' = l := by simpa using ha
            obtain ⟨h1, h2⟩ := ih hl
            constructor
            · rw [List.map_cons, List.nodup_cons]
              exact ⟨fun hm => h2 id hm (by simp), h1⟩
            · intro x hx
              rw [List.map_cons, List.mem_cons] at hx
              rcases hx with rfl | hx
              · exact (search_spec hs).1
              · intro hm
                exact h2 x hx (by simp [hm])

theorem assign_roundtrip {h : N → Nat → Nat → I} {seen : List I} {ds : List (Device H N)}
    {l : List (I × Device H N)} (ha : assign h seen ds = .ok l) {id : I} {d : Device H N} (hm : (id, d) ∈ l) :
    deviceFor h id seen ds = .ok (some d) := by
  induction ds generalizing seen l with
  | nil =>
    obtain rfl : [] = l := by simpa [assign] using ha
    simp at hm
  | cons d' ds ih =>
    simp only [assign] at ha
    simp only [deviceFor]
    rcases hch : d'.channels with - | c <;> simp only [hch] at ha ⊢
    · exact ih ha hm
    · rcases hn : d'.name with - | n <;> simp only [hn] at ha ⊢
      · cases ha
      · rcases hs : search (h n c) seen 0 with - | id' <;> simp only [hs] at ha ⊢
        · cases ha
        · split at ha
          · cases ha
          · rename_i l' hl
            obtain rfl : (id', d') :: l' = l := by simpa using ha
            rw [List.mem_cons] at hm
            rcases hm with hm | hm
            · simp only [Prod.mk.injEq] at hm
              rw [if_pos hm.1.symm, hm.2]
            · have : id ∉ seen ++ [id'] := (assign_nodup hl).2 id (List.mem_map.2 ⟨_, hm, rfl⟩)
              rw [if_neg (fun e => this (by simp [e]))]
              exact ih hl hm

/-- what `deviceFor` finds has been assigned this id -/
theorem deviceFor_assign {h : N → Nat → Nat → I} {seen : List I} {ds : List (Device H N)}
    {l : List (I × Device H N)} (ha : assign h seen ds = .ok l) {id : I} :
    deviceFor h id seen ds = .ok ((l.find? (·.1 = id)).map (·.2)) := by
  induction ds generalizing seen l with
  | nil =>
    obtain rfl : [] = l := by simpa [assign] using ha
    simp [deviceFor]
  | cons d' ds ih =>
    simp only [assign] at ha
    simp only [deviceFor]
    rcases hch : d'.channels with - | c <;> simp only [hch] at ha ⊢
    · exact ih ha
    · rcases hn : d'.name with - | n <;> simp only [hn] at ha ⊢
      · cases ha
      · rcases hs : search (h n c) seen 0 with - | id' <;> simp only [hs] at ha ⊢
        · cases ha
        · split at ha
          · cases ha
          · rename_i l' hl
            obtain rfl : (id', d') :: l' = l := by simpa using ha
            by_cases he : id' = id
            · simp [he]
            · simp [he, ih hl]

/-! ## C78 -/

/-- **C78** No two listed devices have the same id, whatever the hash function is: with `cpal` among all devices,
with `cubeb` among the devices of one kind. -/
theorem C78_unique {cpal : Bool} {h : Kind → N → Nat → Nat → I} {ins outs : List (Device H N)}
    {li lo : List (I × Device H N)} (he : enumerate cpal h ins outs = .ok (li, lo)) :
    (li.map (·.1)).Nodup ∧ (lo.map (·.1)).Nodup ∧
    (cpal = true → ((li ++ lo).map (·.1)).Nodup) := by
  unfold enumerate at he
  split at he
  · cases he
  · rename_i li' hi
    split at he
    · cases he
    · rename_i lo' ho
      obtain ⟨rfl, rfl⟩ : li' = li ∧ lo' = lo := by simpa using he
      refine ⟨(assign_nodup hi).1, (assign_nodup ho).1, fun hc => ?_⟩
      subst hc
      rw [List.map_append, List.nodup_append']
      refine ⟨(assign_nodup hi).1, (assign_nodup ho).1, ?_⟩
      intro a h1 h2
      exact (assign_nodup ho).2 a h2 (by simpa using h1)

/-- the hash of no input is the hash of an output -/
def Apart (h : Kind → N → Nat → Nat → I) : Prop := ∀ n c i n' c' i', h .input n c i ≠ h .output n' c' i'

/-- `assign` for the outputs does not depend on the inputs -/
theorem outs_eq {cpal : Bool} {h : Kind → N → Nat → Nat → I} {ins outs : List (Device H N)}
    {li lo : List (I × Device H N)} (he : enumerate cpal h ins outs = .ok (li, lo))
    (hc : cpal = true → Apart h) :
    assign (h .input) [] ins = .ok li ∧ assign (h .output) [] outs = .ok lo := by
  unfold enumerate at he
  split at he
  · cases he
  · rename_i li' hi
    split at he
    · cases he
    · rename_i lo' ho
      obtain ⟨rfl, rfl⟩ : li' = li ∧ lo' = lo := by simpa using he
      refine ⟨hi, ?_⟩
      cases cpal with
      | false => simpa using ho
      | true =>
        rw [← ho]
        apply assign_congr
        intro n c i
        simp only [List.not_mem_nil, if_true, false_iff]
        intro hm
        -- every id of an input is a hash of an input
        have key : ∀ (ds : List (Device H N)) (seen : List I) (l : List (I × Device H N)),
            assign (h .input) seen ds = .ok l → ∀ id ∈ l.map (·.1), ∃ n c i, id = h .input n c i := by
          intro ds
          induction ds with
          | nil =>
            intro seen l ha
            obtain rfl : [] = l := by simpa [assign] using ha
            simp
          | cons d ds ih =>
            intro seen l ha
            simp only [assign] at ha
            split at ha
            · exact ih _ _ ha
            · split at ha
              · cases ha
              · split at ha
                · cases ha
                · rename_i id hs
                  split at ha
                  · cases ha
                  · rename_i l' hl
                    obtain rfl : (id, d) :: l' = l := by simpa using ha
                    intro x hx
                    rw [List.map_cons, List.mem_cons] at hx
                    rcases hx with rfl | hx
                    · obtain ⟨i, -, -, e, -⟩ := (search_spec hs).2
                      exact ⟨_, _, _, e⟩
                    · exact ih _ _ hl x hx
        obtain ⟨n', c', i', e⟩ := key _ _ _ hi _ hm
        exact hc rfl n' c' i' n c i e.symm

/-- **C78** A listed id opens the device that it was listed for: for playback with the crate `cubeb` whatever the
hash function is, with `cpal` if the hashes of inputs and outputs do not collide; for recording always. And an id
that is not listed is refused for playback. -/
theorem C78_select {cpal : Bool} {h : Kind → N → Nat → Nat → I} {ins outs : List (Device H N)}
    {li lo : List (I × Device H N)} (he : enumerate cpal h ins outs = .ok (li, lo))
    (hc : cpal = true → Apart h) (std : Device H N) :
    (∀ e ∈ lo, openOutput cpal h ins outs std (.id e.1) = .ok (some e.2)) ∧
    (∀ e ∈ li, openInput cpal h ins outs std (some e.1) = .ok e.2) ∧
    (∀ i, i ∉ lo.map (·.1) → openOutput cpal h ins outs std (.id i) = .error .backend) := by
  obtain ⟨hi, ho⟩ := outs_eq he hc
  refine ⟨fun e hm => ?_, fun e hm => ?_, fun i hm => ?_⟩
  · have hmem : e.1 ∈ lo.map (·.1) := List.mem_map.2 ⟨e, hm, rfl⟩
    simp only [openOutput, validSink, he, hmem, decide_true, assign_roundtrip ho hm]
  · have hmem : e.1 ∈ li.map (·.1) := List.mem_map.2 ⟨e, hm, rfl⟩
    simp only [openInput, he, if_pos hmem, assign_roundtrip hi hm]
  · simp only [openOutput, validSink, he, hm, decide_false]

/-- the number of devices in the list that have this name and channel count -/
def same [DecidableEq N] (n : N) (c : Nat) (ds : List (Device H N)) : Nat :=
  ds.countP fun d => d.name = some n ∧ d.channels = some c

/-- **C78** If the hash has no collisions, the id of a device depends only on its name, its channel count, and on
how many devices with the same name and channel count are listed before it; in particular other devices come and
go without changing it. All devices can be listed if all have a name and no more than 256 are alike. -/
theorem C78_stable [DecidableEq N] {h : N → Nat → Nat → I} (hinj : ∀ n c i n' c' i', h n c i = h n' c' i' → n = n' ∧ c = c' ∧ i = i')
    {ds : List (Device H N)} (hname : ∀ d ∈ ds, d.channels.isSome → d.name.isSome)
    (hcount : ∀ n c, same n c ds ≤ 256) :
    ∃ l, assign h [] ds = .ok l ∧
      ∀ pre d post n c, ds = pre ++ d :: post → d.name = some n → d.channels = some c →
        (h n c (same n c pre), d) ∈ l := by
  -- invariant: the ids in use are those of the devices before
  suffices ∀ (ds before : List (Device H N)) (seen : List I),
      (∀ n c i, h n c i ∈ seen ↔ i < same n c before) →
      (∀ d ∈ ds, d.channels.isSome → d.name.isSome) → (∀ n c, same n c (before ++ ds) ≤ 256) →
      ∃ l, assign h seen ds = .ok l ∧
        ∀ pre d post n c, ds = pre ++ d :: post → d.name = some n → d.channels = some c →
          (h n c (same n c (before ++ pre)), d) ∈ l by
    simpa using this ds [] [] (by simp [same]) hname (by simpa using hcount)
  intro ds
  induction ds with
  | nil =>
    intro before seen _ _ _
    exact ⟨[], rfl, fun pre d post n c h => by simp at h⟩
  | cons d ds ih =>
    intro before seen hseen hname hcount
    simp only [assign]
    rcases hch : d.channels with - | c
    · -- left out
      have hs : ∀ n c l, same n c (before ++ d :: l) = same n c (before ++ [d] ++ l) := by
        intro n c l; simp
      obtain ⟨l, h1, h2⟩ := ih (before ++ [d]) seen
        (by intro n c i; rw [hseen]; simp [same, hch])
        (fun d' hd' => hname d' (by simp [hd'])) (by intro n c; rw [← hs]; exact hcount n c)
      refine ⟨l, h1, ?_⟩
      intro pre d' post n c hsplit hn hc
      cases pre with
      | nil =>
        simp only [List.nil_append, List.cons.injEq] at hsplit
        rw [← hsplit.1, hch] at hc
        cases hc
      | cons p pre =>
        simp only [List.cons_append, List.cons.injEq] at hsplit
        have := h2 pre d' post n c hsplit.2 hn hc
        rw [← hsplit.1, hs]
        exact this
    · obtain ⟨n, hn⟩ := Option.isSome_iff_exists.1 (hname d (by simp) (by simp [hch]))
      simp only [hn]
      have hk : same n c before < 256 := by
        have := hcount n c
        simp only [same, List.countP_append, List.countP_cons, hn, hch] at this ⊢
        simp only [and_self, decide_true, if_true] at this
        omega
      rw [search_of (i := same n c before) (Nat.zero_le _) hk (by rw [hseen]; omega)
        (fun j _ hj => (hseen n c j).2 hj)]
      have hs : ∀ n c l, same n c (before ++ d :: l) = same n c (before ++ [d] ++ l) := by
        intro n c l; simp
      obtain ⟨l, h1, h2⟩ := ih (before ++ [d]) (seen ++ [h n c (same n c before)])
        (by
          intro n' c' i
          rw [List.mem_append, hseen, List.mem_singleton]
          simp only [same, List.countP_append, List.countP_cons, List.countP_nil, hn, hch, Option.some.injEq,
            Nat.zero_add]
          by_cases he : n = n' ∧ c = c'
          · obtain ⟨rfl, rfl⟩ := he
            simp only [and_self, decide_true, if_true]
            constructor
            · rintro (h | h)
              · omega
              · have := (hinj _ _ _ _ _ _ h).2.2
                omega
            · intro h
              by_cases hi : i < same n c before
              · exact .inl hi
              · right
                have : i = same n c before := by simp only [same] at hi ⊢; omega
                rw [this]
                rfl
          · simp only [he, decide_false, Bool.false_eq_true, if_false, Nat.add_zero, or_iff_left_iff_imp]
            intro h
            have := hinj _ _ _ _ _ _ h
            exact absurd ⟨this.1.symm, this.2.1.symm⟩ he)
        (fun d' hd' => hname d' (by simp [hd'])) (by intro n c; rw [← hs]; exact hcount n c)
      simp only [h1]
      refine ⟨_, rfl, ?_⟩
      intro pre d' post n' c' hsplit hn' hc'
      cases pre with
      | nil =>
        simp only [List.nil_append, List.cons.injEq] at hsplit
        obtain ⟨rfl, -⟩ := hsplit
        rw [hn, Option.some.injEq] at hn'
        rw [hch, Option.some.injEq] at hc'
        subst hn' hc'
        simp
      | cons p pre =>
        simp only [List.cons_append, List.cons.injEq] at hsplit
        have := h2 pre d' post n' c' hsplit.2 hn' hc'
        rw [← hsplit.1, hs]
        exact List.mem_cons_of_mem _ this

/-! ## Violations -/

/-- **C78** negated: with `cpal`, if the hash of an input device collides with that of an output device, the id
that is listed for the output opens the standard device instead. -/
theorem C78_negated_collision {h : Kind → N → Nat → Nat → I} {n m : N} {c e : Nat}
    (hcol : h .input n c 0 = h .output m e 0) (h1 : h .output m e 1 ≠ h .output m e 0) (a b s : H) :
    enumerate true h [⟨a, some n, some c⟩] [⟨b, some m, some e⟩] =
      .ok ([(h .input n c 0, ⟨a, some n, some c⟩)], [(h .output m e 1, ⟨b, some m, some e⟩)]) ∧
    openOutput true h [⟨a, some n, some c⟩] [⟨b, some m, some e⟩] ⟨s, none, none⟩ (.id (h .output m e 1)) =
      .ok (some ⟨s, none, none⟩) := by
  have s0 : ∀ g : Nat → I, search g [] 0 = some (g 0) := fun g => by rw [search]; simp
  have s1 : search (h .output m e) [h .output m e 0] 0 = some (h .output m e 1) := by
    rw [search]; simp [search, h1]
  have he : enumerate true h [⟨a, some n, some c⟩] [⟨b, some m, some e⟩] =
      .ok ([(h .input n c 0, ⟨a, some n, some c⟩)], [(h .output m e 1, ⟨b, some m, some e⟩)]) := by
    simp [enumerate, assign, s0, hcol, s1]
  refine ⟨he, ?_⟩
  simp [openOutput, validSink, he, deviceFor, s0, h1.symm]

/-- **C78** negated: more than 256 devices of one name cannot be listed; the enumeration panics. -/
theorem C78_negated_overflow (h : N → Nat → Nat → I) (a : H) (n : N) (c : Nat) (k : Nat) (hk : 256 < k) :
    assign h [] (List.replicate k ⟨a, some n, some c⟩) = .error .overflow := by
  -- each device takes one of 256 ids
  suffices ∀ (k : Nat) (seen : List I), seen.Nodup → (∀ x ∈ seen, ∃ i < 256, x = h n c i) →
      256 < seen.length + k →
      assign h seen (List.replicate k (⟨a, some n, some c⟩ : Device H N)) = .error .overflow from
    this k [] (by simp) (by simp) (by simpa using hk)
  intro k
  induction k with
  | zero =>
    intro seen hnd hsub hlen
    exfalso
    have : seen.length ≤ ((List.range 256).map (h n c)).length := by
      apply List.Subperm.length_le
      apply List.subperm_of_subset hnd
      intro x hx
      obtain ⟨i, hi, rfl⟩ := hsub x hx
      exact List.mem_map.2 ⟨i, List.mem_range.2 hi, rfl⟩
    simp at this hlen
    omega
  | succ k ih =>
    intro seen hnd hsub hlen
    rw [List.replicate_succ]
    simp only [assign]
    rcases hs : search (h n c) seen 0 with - | id
    · rfl
    · simp only
      obtain ⟨hm, i, -, hi, e, -⟩ := search_spec hs
      rw [ih (seen ++ [id])]
      · rw [List.nodup_append']
        exact ⟨hnd, by simp, by simpa using hm⟩
      · intro x hx
        rw [List.mem_append, List.mem_singleton] at hx
        rcases hx with hx | rfl
        · exact hsub x hx
        · exact ⟨i, hi, e⟩
      · simp; omega

/-- **C78** negated: a single device without a name hides all devices (with a channel count), and then every sink
id is refused. -/
theorem C78_negated_hidden {cpal : Bool} {h : Kind → N → Nat → Nat → I} (a : H) (c : Nat)
    (ins outs : List (Device H N)) (std : Device H N) (i : I) :
    openOutput cpal h (⟨a, none, some c⟩ :: ins) outs std (.id i) = .error .backend := by
  simp [openOutput, validSink, enumerate, assign]

/-- **C78** negated: `get_user_media_sync` records from the standard device if the requested one does not exist. -/
theorem C78_negated_fallback {cpal : Bool} {h : Kind → N → Nat → Nat → I} {ins outs : List (Device H N)}
    {li lo : List (I × Device H N)} (he : enumerate cpal h ins outs = .ok (li, lo)) (std : Device H N)
    {i : I} (hi : i ∉ li.map (·.1)) :
    openInput cpal h ins outs std (some i) = .ok std := by
  simp only [openInput, he, if_neg hi]

/-- **C78** negated: of two devices that are alike, the id of the first means the second when the first is
unplugged. -/
theorem C78_negated_unplugged (h : N → Nat → Nat → I) (a b : H) (n : N) (c : Nat) (hne : h n c 1 ≠ h n c 0) :
    assign h [] [⟨a, some n, some c⟩, ⟨b, some n, some c⟩] =
      .ok [(h n c 0, ⟨a, some n, some c⟩), (h n c 1, ⟨b, some n, some c⟩)] ∧
    deviceFor h (h n c 0) [] [⟨b, some n, some c⟩] = .ok (some ⟨b, some n, some c⟩) := by
  have s0 : ∀ g : Nat → I, search g [] 0 = some (g 0) := fun g => by rw [search]; simp
  have s1 : search (h n c) [h n c 0] 0 = some (h n c 1) := by
    rw [search]; simp [search, hne]
  simp [assign, deviceFor, s0, s1]

/-! ## Examples -/

/-- A hash without collisions, and one in which inputs and outputs collide. -/
def exHash (k : Kind) (n c i : Nat) : Kind × Nat × Nat × Nat := (k, n, c, i)

example : Apart exHash := by simp [Apart, exHash]

example : enumerate true exHash [(⟨0, some 7, some 2⟩ : Device Nat Nat)]
      [⟨1, some 7, some 2⟩, ⟨2, some 7, none⟩, ⟨3, some 7, some 2⟩] =
    .ok ([((.input, 7, 2, 0), ⟨0, some 7, some 2⟩)],
      [((.output, 7, 2, 0), ⟨1, some 7, some 2⟩), ((.output, 7, 2, 1), ⟨3, some 7, some 2⟩)]) := by
  simp [enumerate, assign, exHash, search]

example : (fun (_ : Kind) (n c i : Nat) => (n, c, i)) .input 7 2 0 =
    (fun (_ : Kind) (n c i : Nat) => (n, c, i)) .output 7 2 0 := rfl

end Verif.Io.Devices
