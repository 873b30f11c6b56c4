import Verif.Proof.SchedLive
import Mathlib.Data.Finset.Card
import Mathlib.Order.Interval.Finset.Nat
/-! # Invariant of the goroutine system when document ids are used again

As `Proof/Sched`, for any number of documents: the ids are those of `Proof/Sched` modulo `2 ^ 32`.  The
invariant counts documents with a natural number `M`; the number of a document in hand is found from its
id and the id of the last one done, as there are less than `2 ^ 32` documents in hand. -/

namespace Dupi.Sched.Wrap
open Dupi.Sched

set_option linter.unusedSimpArgs false

variable {W S D α : Type}

/-- What is known about a session from outside: the system, its documents, and what the computations
do. -/
structure Env (W S D α : Type) where
  P : Params W S D α
  b0 : Nat → W
  s0 : Nat → S
  /-- number of documents before the session -/
  base : Nat
  /-- not more shatterers than ids -/
  small : P.nw < 2 ^ 32
  /-- the documents of the session with their ids -/
  docs : List (UInt32 × D)
  /-- the posts of a document for each shard -/
  out : UInt32 → D → Nat → List α
  /-- what the blotters satisfy -/
  Iw : W → Prop
  iw0 : ∀ w, w < P.nw → Iw (b0 w)
  hcompute : ∀ b did d, Iw b → ∃ b', P.compute b did d = .ok (b', out did d) ∧ Iw b'
  ids : ∀ (k : Nat) x, docs[k]? = some x → x.1 = UInt32.ofNat (base + k + 1)

variable (Γ : Env W S D α)

/-- the posts of the document with id `did` for shard `j` -/
def Env.batch (did j : Nat) : List α :=
  match Γ.docs[did - Γ.base - 1]? with
  | some x => Γ.out x.1 x.2 j
  | none => []

/-- the batches for shard `j` of all documents of the session up to id `m` -/
def Env.batches (m j : Nat) : List (List α) := (List.range (m - Γ.base)).map fun i => Γ.batch (Γ.base + i + 1) j

/-- all of them can be added to the shards -/
def Env.Serves : Prop := ∀ j, j < Γ.P.n → ∃ x, serveAll Γ.P.serve (Γ.s0 j) (Γ.batches (Γ.base + Γ.docs.length) j).flatten = .ok x

theorem Env.batches_succ {m : Nat} (h : Γ.base ≤ m) (j : Nat) : Γ.batches (m + 1) j = Γ.batches m j ++ [Γ.batch (m + 1) j] := by
  unfold batches
  rw [show m + 1 - Γ.base = (m - Γ.base) + 1 by omega, List.range_succ, List.map_append]
  simp only [List.map_cons, List.map_nil]
  rw [show Γ.base + (m - Γ.base) + 1 = m + 1 by omega]

theorem Env.batches_prefix {m m' : Nat} (h : m ≤ m') (j : Nat) : ∃ l, Γ.batches m' j = Γ.batches m j ++ l := by
  unfold batches
  rw [show m' - Γ.base = (m - Γ.base) + ((m' - Γ.base) - (m - Γ.base)) by omega, List.range_add, List.map_append]
  exact ⟨_, rfl⟩

/-- how many documents the caller has handed over -/
def Env.sent : Client D → Nat
  | .add ds => Γ.docs.length - ds.length
  | _ => Γ.docs.length

/-- the number of the document with id `did`, when `M` documents are done, the last with id `μ` -/
def absOf (M : Nat) (μ did : UInt32) : Nat := M + (did - μ).toNat

/-- the document a shatterer has in hand -/
def didOf (M : Nat) (μ : UInt32) : WSt D α → Option Nat
  | .computing did _ => some (absOf M μ did)
  | .locking did _ => some (absOf M μ did)
  | .checking did _ => some (absOf M μ did)
  | .waiting did _ => some (absOf M μ did)
  | .woken did _ => some (absOf M μ did)
  | .sending did _ => some (absOf M μ did)
  | .publish did => some (absOf M μ did)
  | _ => none

/-- the data a shatterer has in hand is right -/
def Env.payOk (M : Nat) (μ : UInt32) : WSt D α → Prop
  | .computing did d => Γ.docs[absOf M μ did - Γ.base - 1]? = some (did, d)
  | .locking did out => ∀ j, out j = Γ.batch (absOf M μ did) j
  | .checking did out => ∀ j, out j = Γ.batch (absOf M μ did) j
  | .waiting did out => ∀ j, out j = Γ.batch (absOf M μ did) j
  | .woken did out => ∀ j, out j = Γ.batch (absOf M μ did) j
  | _ => True

def Env.clientOk : Client D → Prop
  | .add ds => ds.length ≤ Γ.docs.length ∧ ds = Γ.docs.drop (Γ.docs.length - ds.length)
  | .shut k => k ≤ Γ.P.nw
  | .close j => j ≤ Γ.P.n
  | .done => True

def Env.exitedN : Client D → Nat
  | .add .. => 0
  | .shut k => Γ.P.nw - k
  | _ => Γ.P.nw

/-- a server between batches, having received those up to document `m` -/
def Env.Rest (c : Client D) (x : Server S α) (j m : Nat) : Prop :=
  (x.st = .idle ∨ (x.st = .exited ∧ c.closed j)) ∧ x.log = Γ.batches m j ∧
    serveAll Γ.P.serve (Γ.s0 j) (Γ.batches m j).flatten = .ok x.shard

/-- a server in the middle of batch `m + 1` -/
def Env.Mid (x : Server S α) (j m : Nat) : Prop :=
  x.log = Γ.batches (m + 1) j ∧
  ((x.st = .busy (Γ.batch (m + 1) j) ∧ serveAll Γ.P.serve (Γ.s0 j) (Γ.batches m j).flatten = .ok x.shard) ∨
   (x.st = .acking ∧ serveAll Γ.P.serve (Γ.s0 j) (Γ.batches (m + 1) j).flatten = .ok x.shard))

/-- how a sender and its server are related -/
def Env.sendOk (c : Client D) (x : Server S α) (j m : Nat) : Sender α → Prop
  | .toSend ps => ps = Γ.batch (m + 1) j ∧ Γ.Rest c x j m
  | .await => Γ.Mid x j m
  | .done => Γ.Rest c x j (m + 1)

structure Inv (M : Nat) (s : St W S D α) : Prop where
  bw : ∀ w, w < Γ.P.nw → Γ.Iw (s.workers w).1
  pay : ∀ w, w < Γ.P.nw → Γ.payOk M s.mono (s.workers w).2
  cl : Γ.clientOk s.client
  ex : sumN Γ.P.nw (fun w => exitedW (s.workers w).2) = Γ.exitedN s.client
  mo : s.mono = UInt32.ofNat M
  lo : Γ.base ≤ M
  hi : M ≤ Γ.base + Γ.sent s.client
  fl1 : ∀ w, w < Γ.P.nw → ∀ d, didOf M s.mono (s.workers w).2 = some d → M < d ∧ d ≤ Γ.base + Γ.sent s.client
  fl2 : ∀ w w', w < Γ.P.nw → w' < Γ.P.nw → ∀ d, didOf M s.mono (s.workers w).2 = some d → didOf M s.mono (s.workers w').2 = some d → w = w'
  fl3 : ∀ d, M < d → d ≤ Γ.base + Γ.sent s.client → ∃ w, w < Γ.P.nw ∧ didOf M s.mono (s.workers w).2 = some d
  hold : ∀ w, w < Γ.P.nw → (crit (s.workers w).2 = true ↔ s.holder = some w)
  holdLt : ∀ w, s.holder = some w → w < Γ.P.nw
  wk : ∀ w, w < Γ.P.nw → ∀ did out, (s.workers w).2 = .waiting did out → absOf M s.mono did ≠ M + 1 ∨
    ∃ w', w' < Γ.P.nw ∧ (s.workers w').2 = .broadcasting
  snd : ∀ w, w < Γ.P.nw → busyW (s.workers w).2 = true → didOf M s.mono (s.workers w).2 = some (M + 1)
  svS : ∀ w, w < Γ.P.nw → ∀ did ss, (s.workers w).2 = .sending did ss → ∀ j, j < Γ.P.n →
    Γ.sendOk s.client (s.servers j) j M (ss j)
  svP : ∀ w, w < Γ.P.nw → ∀ did, (s.workers w).2 = .publish did → ∀ j, j < Γ.P.n → Γ.Rest s.client (s.servers j) j (M + 1)
  svN : (∀ w, w < Γ.P.nw → busyW (s.workers w).2 = false) → ∀ j, j < Γ.P.n → Γ.Rest s.client (s.servers j) j M

variable {Γ} {M : Nat}

theorem Inv.init : Inv Γ Γ.base (init Γ.b0 Γ.s0 (UInt32.ofNat Γ.base) Γ.docs) where
  bw := Γ.iw0
  pay := fun _ _ => trivial
  cl := ⟨Nat.le_refl _, by simp⟩
  ex := by simp [Sched.init, exitedW, sumN_const, Env.exitedN]
  mo := rfl
  lo := Nat.le_refl _
  hi := by simp [Sched.init]
  fl1 := by simp [Sched.init, didOf]
  fl2 := by simp [Sched.init, didOf]
  fl3 := by intro d h1 h2; simp [Sched.init, Env.sent] at h1 h2; omega
  hold := by simp [Sched.init, crit]
  holdLt := by simp [Sched.init]
  wk := by simp [Sched.init]
  snd := by simp [Sched.init, busyW]
  svS := by simp [Sched.init]
  svP := by simp [Sched.init]
  svN := by
    intro _ j _
    refine ⟨.inl rfl, ?_, ?_⟩ <;> simp [Sched.init, Env.batches, serveAll]

theorem setW_mono (s : St W S D α) (w : Nat) (v : WSt D α) : (s.setW w v).mono = s.mono := rfl

/-- A shatterer moves on with the same document, servers and `mono` unchanged. -/
theorem Inv.move {s t : St W S D α} (h : Inv Γ M s) {w : Nat} (hw : w < Γ.P.nw) {b : W} {y : WSt D α}
    (e1 : t.workers = upd s.workers w (b, y)) (e2 : t.servers = s.servers) (e3 : t.mono = s.mono) (e4 : t.client = s.client)
    (hb : Γ.Iw b) (hp : Γ.payOk M s.mono y) (hd : didOf M s.mono y = didOf M s.mono (s.workers w).2) (hex : exitedW y = exitedW (s.workers w).2)
    (hc : crit y = true ↔ t.holder = some w) (hc' : ∀ w', w' ≠ w → (t.holder = some w' ↔ s.holder = some w'))
    (hnb : (s.workers w).2 ≠ .broadcasting)
    (hwk : ∀ did out, y = .waiting did out → absOf M s.mono did ≠ M + 1)
    (hsnd : busyW y = true → didOf M s.mono y = some (M + 1))
    (hS : ∀ did ss, y = .sending did ss → ∀ j, j < Γ.P.n → Γ.sendOk s.client (s.servers j) j M (ss j))
    (hP : ∀ did, y = .publish did → ∀ j, j < Γ.P.n → Γ.Rest s.client (s.servers j) j (M + 1))
    (hN : busyW y = false → busyW (s.workers w).2 = false) : Inv Γ M t := by
  have hw1 : t.workers w = (b, y) := by rw [e1, upd_same]
  have hw2 : ∀ w', w' ≠ w → t.workers w' = s.workers w' := fun w' hne => by rw [e1, upd_ne _ _ hne]
  have hdid : ∀ w', didOf M s.mono (t.workers w').2 = didOf M s.mono (s.workers w').2 := fun w' => by
    by_cases e : w' = w
    · subst e; rw [hw1]; exact hd
    · rw [hw2 w' e]
  refine { bw := ?_, pay := ?_, cl := ?_, ex := ?_, mo := ?_, lo := ?_, hi := ?_, fl1 := ?_, fl2 := ?_, fl3 := ?_, hold := ?_,
           holdLt := ?_, wk := ?_, snd := ?_, svS := ?_, svP := ?_, svN := ?_ }
  · intro w' hw'
    by_cases e : w' = w
    · subst e; rw [hw1]; exact hb
    · rw [hw2 w' e]; exact h.bw w' hw'
  · intro w' hw'
    by_cases e : w' = w
    · subst e; rw [e3, hw1]; exact hp
    · rw [e3, hw2 w' e]; exact h.pay w' hw'
  · rw [e4]; exact h.cl
  · rw [e4, ← h.ex]
    apply sumN_congr
    intro w' _
    by_cases e : w' = w
    · subst e; rw [hw1]; exact hex
    · rw [hw2 w' e]
  · rw [e3]; exact h.mo
  · exact h.lo
  · rw [e4]; exact h.hi
  · intro w' hw'; rw [e3, hdid, e4]; exact h.fl1 w' hw'
  · intro w1 w2 h1 h2 d; rw [e3, hdid, hdid]; exact h.fl2 w1 w2 h1 h2 d
  · intro d h1 h2
    rw [e4] at h2
    obtain ⟨w', h3, h4⟩ := h.fl3 d h1 h2
    exact ⟨w', h3, by rw [e3, hdid]; exact h4⟩
  · intro w' hw'
    by_cases e : w' = w
    · subst e; rw [hw1]; exact hc
    · rw [hw2 w' e, hc' w' e]; exact h.hold w' hw'
  · intro w' hw'
    by_cases e : w' = w
    · subst e; exact hw
    · exact h.holdLt w' ((hc' w' e).mp hw')
  · intro w' hw' did out hx
    by_cases e : w' = w
    · subst e; rw [hw1] at hx; rw [e3]; exact .inl (hwk did out hx)
    · rw [hw2 w' e] at hx
      rcases h.wk w' hw' did out hx with h1 | ⟨w2, h2, h3⟩
      · rw [e3]; exact .inl h1
      · refine .inr ⟨w2, h2, ?_⟩
        rw [hw2 w2 (by intro e; subst e; exact hnb h3)]; exact h3
  · intro w' hw' hx
    by_cases e : w' = w
    · subst e; rw [hw1] at hx ⊢; rw [e3]; exact hsnd hx
    · rw [hw2 w' e] at hx ⊢; rw [e3]; exact h.snd w' hw' hx
  · intro w' hw' did ss hx
    rw [e2, e4]
    by_cases e : w' = w
    · subst e; rw [hw1] at hx; exact hS did ss hx
    · rw [hw2 w' e] at hx; exact h.svS w' hw' did ss hx
  · intro w' hw' did hx
    rw [e2, e4]
    by_cases e : w' = w
    · subst e; rw [hw1] at hx; exact hP did hx
    · rw [hw2 w' e] at hx; exact h.svP w' hw' did hx
  · intro hall
    rw [e2, e4]
    apply h.svN
    intro w' hw'
    by_cases e : w' = w
    · subst e; exact hN (by have := hall w' hw'; rwa [hw1] at this)
    · have := hall w' hw'; rwa [hw2 w' e] at this

/-- at most one shatterer talks to the shards -/
theorem Inv.crit_unique {s : St W S D α} (h : Inv Γ M s) {w w' : Nat} (hw : w < Γ.P.nw) (hw' : w' < Γ.P.nw)
    (h1 : crit (s.workers w).2 = true) (h2 : crit (s.workers w').2 = true) : w = w' := by
  have a := (h.hold w hw).mp h1
  have b := (h.hold w' hw').mp h2
  rw [a] at b; injection b

/-- a shatterer that has not returned keeps the channels open -/
theorem Inv.not_closed {s : St W S D α} (h : Inv Γ M s) {w : Nat} (hw : w < Γ.P.nw) (he : exitedW (s.workers w).2 = 0) (j : Nat) :
    ¬ s.client.closed j := by
  intro hcl
  have hn : Γ.exitedN s.client = Γ.P.nw := by
    cases hc : s.client <;> simp [hc, Client.closed] at hcl <;> rfl
  have hex := h.ex
  rw [hn] at hex
  have hle : ∀ i, exitedW (s.workers i).2 ≤ 1 := by intro i; cases (s.workers i).2 <;> simp [exitedW]
  have := sumN_change (n := Γ.P.nw) (i := w) (f := fun i => exitedW (s.workers i).2)
    (g := upd (fun i => exitedW (s.workers i).2) w 1) hw (fun j _ hj => by rw [upd_ne _ _ hj])
  rw [upd_same, hex, he] at this
  have hle2 := sumN_le (n := Γ.P.nw) (c := 0) (f := upd (fun i => exitedW (s.workers i).2) w 1) (g := fun _ => 1)
    (by intro i _; by_cases e : i = w
        · subst e; simp [upd_same]
        · rw [upd_ne _ _ e]; exact hle i)
  rw [sumN_const] at hle2
  omega

/-- Only the caller moves, to a later phase. -/
theorem Inv.caller {s t : St W S D α} (h : Inv Γ M s) (e1 : t.workers = s.workers) (e2 : t.servers = s.servers)
    (e3 : t.mono = s.mono) (e4 : t.holder = s.holder) (hok : Γ.clientOk t.client) (hex : Γ.exitedN t.client = Γ.exitedN s.client)
    (hs : Γ.sent t.client = Γ.sent s.client) (hc : ∀ j, s.client.closed j → t.client.closed j) : Inv Γ M t := by
  have hrest : ∀ x j m, Γ.Rest s.client x j m → Γ.Rest t.client x j m := by
    intro x j m ⟨h1, h2⟩
    exact ⟨h1.imp id (fun ⟨a, b⟩ => ⟨a, hc j b⟩), h2⟩
  refine { bw := ?_, pay := ?_, cl := hok, ex := ?_, mo := ?_, lo := ?_, hi := ?_, fl1 := ?_, fl2 := ?_, fl3 := ?_, hold := ?_,
           holdLt := ?_, wk := ?_, snd := ?_, svS := ?_, svP := ?_, svN := ?_ }
  · rw [e1]; exact h.bw
  · rw [e1, e3]; exact h.pay
  · rw [e1, hex]; exact h.ex
  · rw [e3]; exact h.mo
  · exact h.lo
  · rw [hs]; exact h.hi
  · rw [e1, e3, hs]; exact h.fl1
  · rw [e1, e3]; exact h.fl2
  · rw [e1, e3, hs]; exact h.fl3
  · rw [e1, e4]; exact h.hold
  · rw [e4]; exact h.holdLt
  · rw [e1, e3]; exact h.wk
  · rw [e1, e3]; exact h.snd
  · rw [e1, e2]
    intro w hw did ss hx j hj
    have := h.svS w hw did ss hx j hj
    revert this
    cases ss j with
    | toSend ps => exact fun ⟨a, b⟩ => ⟨a, hrest _ _ _ b⟩
    | await => exact id
    | done => exact hrest _ _ _
  · rw [e1, e2]; exact fun w hw did hx j hj => hrest _ _ _ (h.svP w hw did hx j hj)
  · rw [e1, e2]; exact fun ha j hj => hrest _ _ _ (h.svN ha j hj)

/-- The shatterer that talks to the shards and the server of shard `j` move. -/
theorem Inv.talk {s t : St W S D α} (h : Inv Γ M s) {w j : Nat} (hw : w < Γ.P.nw) (hj : j < Γ.P.n) {did : UInt32}
    {ss ss' : Nat → Sender α} {x : Server S α} (hst : (s.workers w).2 = .sending did ss)
    (e1 : t.workers w = ((s.workers w).1, .sending did ss')) (e1' : ∀ w', w' ≠ w → t.workers w' = s.workers w')
    (e2 : t.servers = upd s.servers j x) (e3 : t.mono = s.mono) (e4 : t.client = s.client) (e5 : t.holder = s.holder)
    (hss : ∀ i, i ≠ j → ss' i = ss i) (hx : Γ.sendOk s.client x j M (ss' j)) : Inv Γ M t := by
  have key : ∀ {β : Type} (f : WSt D α → β), f (.sending did ss') = f (.sending did ss) →
      ∀ w', f (t.workers w').2 = f (s.workers w').2 := by
    intro β f hf w'
    by_cases e : w' = w
    · subst e; rw [e1, hst]; exact hf
    · rw [e1' w' e]
  have only : ∀ w', w' < Γ.P.nw → w' ≠ w → crit (s.workers w').2 = false := by
    intro w' hw' hne
    cases hc : crit (s.workers w').2 with
    | false => rfl
    | true => exact absurd (h.crit_unique hw' hw hc (by rw [hst]; rfl)) hne
  refine { bw := ?_, pay := ?_, cl := ?_, ex := ?_, mo := ?_, lo := ?_, hi := ?_, fl1 := ?_, fl2 := ?_, fl3 := ?_, hold := ?_,
           holdLt := ?_, wk := ?_, snd := ?_, svS := ?_, svP := ?_, svN := ?_ }
  · intro w' hw'
    by_cases e : w' = w
    · subst e; rw [e1]; exact h.bw w' hw'
    · rw [e1' w' e]; exact h.bw w' hw'
  · intro w' hw'; rw [e3, key (Γ.payOk M s.mono) rfl]; exact h.pay w' hw'
  · rw [e4]; exact h.cl
  · rw [e4, ← h.ex]; exact sumN_congr fun w' _ => key exitedW rfl w'
  · rw [e3]; exact h.mo
  · exact h.lo
  · rw [e4]; exact h.hi
  · intro w' hw'; rw [e3, key (didOf M s.mono) rfl, e4]; exact h.fl1 w' hw'
  · intro w1 w2 h1 h2 d; rw [e3, key (didOf M s.mono) rfl, key (didOf M s.mono) rfl]; exact h.fl2 w1 w2 h1 h2 d
  · intro d h1 h2
    rw [e4] at h2
    obtain ⟨w', h3, h4⟩ := h.fl3 d h1 h2
    exact ⟨w', h3, by rw [e3, key (didOf M s.mono) rfl]; exact h4⟩
  · intro w' hw'; rw [key crit rfl, e5]; exact h.hold w' hw'
  · rw [e5]; exact h.holdLt
  · intro w' hw' did' out hx'
    have hne : w' ≠ w := by intro e; subst e; rw [e1] at hx'; cases hx'
    rw [e1' w' hne] at hx'
    rcases h.wk w' hw' did' out hx' with h1 | ⟨w2, h2, h3⟩
    · rw [e3]; exact .inl h1
    · refine .inr ⟨w2, h2, ?_⟩
      rw [e1' w2 (by intro e; subst e; rw [hst] at h3; cases h3)]; exact h3
  · intro w' hw'; rw [e3, key busyW rfl, key (didOf M s.mono) rfl]; exact h.snd w' hw'
  · intro w' hw' did' ss2 hx' i hi
    have he : w' = w := by
      by_cases e : w' = w
      · exact e
      · rw [e1' w' e] at hx'; have := only w' hw' e; rw [hx'] at this; cases this
    subst he
    rw [e1] at hx'
    injection hx' with a b
    subst b
    rw [e2, e4]
    by_cases e : i = j
    · subst e; rw [upd_same]; exact hx
    · rw [upd_ne _ _ e, hss i e]; exact h.svS w' hw' did ss hst i hi
  · intro w' hw' did' hx'
    by_cases e : w' = w
    · subst e; rw [e1] at hx'; cases hx'
    · rw [e1' w' e] at hx'; have := only w' hw' e; rw [hx'] at this; cases this
  · intro hall
    have := hall w hw
    rw [e1] at this; cases this

/-- who is at the other end of a shard that is not at rest -/
theorem Inv.sender {s : St W S D α} (h : Inv Γ M s) {j : Nat} (hj : j < Γ.P.n) (hne : ∀ m, ¬ Γ.Rest s.client (s.servers j) j m) :
    ∃ w did ss, w < Γ.P.nw ∧ (s.workers w).2 = .sending did ss ∧ ss j = .await ∧ Γ.Mid (s.servers j) j M := by
  by_cases hb : ∀ w, w < Γ.P.nw → busyW (s.workers w).2 = false
  · exact absurd (h.svN hb j hj) (hne _)
  · simp only [Classical.not_forall] at hb
    obtain ⟨w, hw, hb⟩ := hb
    cases hx : (s.workers w).2 <;> rw [hx] at hb <;> simp [busyW] at hb
    · rename_i did ss
      have := h.svS w hw did ss hx j hj
      refine ⟨w, did, ss, hw, hx, ?_⟩
      revert this
      cases ss j with
      | toSend ps => exact fun ⟨_, b⟩ => absurd b (hne _)
      | await => exact fun a => ⟨rfl, a⟩
      | done => exact fun b => absurd b (hne _)
    · exact absurd (h.svP w hw _ hx j hj) (hne _)

theorem Rest.idle {c : Client D} {x : Server S α} {j m : Nat} (h : Γ.Rest c x j m) (hc : ¬ c.closed j) : x.st = .idle :=
  h.1.resolve_right fun a => hc a.2

theorem eq_pred {m did : UInt32} : m = did - 1 ↔ absOf M m did = M + 1 := by
  unfold absOf
  rw [Nat.add_left_cancel_iff]
  constructor
  · rintro rfl
    have : did - (did - 1) = 1 := by grind
    rw [this]; rfl
  · intro h
    have h1 : did - m = 1 := UInt32.toNat_inj.mp h
    grind

theorem absOf_ofNat {m : Nat} (h1 : M ≤ m) (h2 : m < M + 2 ^ 32) : absOf M (UInt32.ofNat M) (UInt32.ofNat m) = m := by
  unfold absOf
  obtain ⟨k, rfl⟩ : ∃ k, m = M + k := ⟨m - M, by omega⟩
  have : UInt32.ofNat (M + k) - UInt32.ofNat M = UInt32.ofNat k := by rw [UInt32.ofNat_add]; grind
  rw [this, UInt32.toNat_ofNat']
  omega

/-- the number of a document in hand does not change when the one next to be done is done -/
theorem absOf_succ {μ did : UInt32} (h : did ≠ μ) : absOf (M + 1) (μ + 1) did = absOf M μ did := by
  unfold absOf
  have h1 : did - (μ + 1) = (did - μ) - 1 := by grind
  have h2 : did - μ ≠ 0 := fun e => h (by grind)
  have h3 : (did - μ).toNat ≠ 0 := fun e => h2 (UInt32.toNat_inj.mp (by simpa using e))
  have h4 : (1 : UInt32) ≤ did - μ := by rw [UInt32.le_iff_toNat_le]; simp only [UInt32.toNat_one]; omega
  rw [h1, UInt32.toNat_sub_of_le _ _ h4, UInt32.toNat_one]
  omega

/-- there are not more documents in hand than shatterers, without those at rest -/
theorem Inv.window {s : St W S D α} (h : Inv Γ M s) {w : Nat} (hw : w < Γ.P.nw) (hn : didOf M s.mono (s.workers w).2 = none) :
    Γ.base + Γ.sent s.client < M + Γ.P.nw := by
  have h3 := h.fl3
  have hc : ∀ d, ∃ w', M < d → d ≤ Γ.base + Γ.sent s.client → w' < Γ.P.nw ∧ didOf M s.mono (s.workers w').2 = some d := by
    intro d
    by_cases h1 : M < d ∧ d ≤ Γ.base + Γ.sent s.client
    · obtain ⟨w', a⟩ := h3 d h1.1 h1.2
      exact ⟨w', fun _ _ => a⟩
    · exact ⟨0, fun a b => absurd ⟨a, b⟩ h1⟩
  choose f hf using hc
  have := Finset.card_le_card_of_injOn (s := Finset.Ioc M (Γ.base + Γ.sent s.client)) (t := (Finset.range Γ.P.nw).erase w) f
    (by
      intro d hd
      simp only [Finset.coe_Ioc, Set.mem_Ioc] at hd
      obtain ⟨a, b⟩ := hf d hd.1 hd.2
      simp only [Finset.coe_erase, Finset.coe_range, Set.mem_sdiff, Set.mem_Iio, Set.mem_singleton_iff]
      exact ⟨a, fun e => by rw [e, hn] at b; cases b⟩)
    (by
      intro d hd d' hd' e
      simp only [Finset.coe_Ioc, Set.mem_Ioc] at hd hd'
      have a := (hf d hd.1 hd.2).2
      have b := (hf d' hd'.1 hd'.2).2
      rw [e, b] at a
      injection a with a; exact a.symm)
  rw [Nat.card_Ioc, Finset.card_erase_of_mem (Finset.mem_range.mpr hw), Finset.card_range] at this
  omega

theorem Inv.step {s t : St W S D α} (h : Inv Γ M s) (st : Step Γ.P s t) : ∃ M, Inv Γ M t := by
  cases st with
  | give h1 hw h3 =>
    refine ⟨M, ?_⟩
    rename_i did d ds w
    have hcl := h.cl
    rw [h1] at hcl
    obtain ⟨c2, c3⟩ := hcl
    simp only [List.length_cons] at c2 c3
    have hsent : Γ.sent s.client = Γ.docs.length - (ds.length + 1) := by rw [h1]; rfl
    have hget : Γ.docs[Γ.docs.length - (ds.length + 1)]? = some (did, d) := by
      have : (Γ.docs.drop (Γ.docs.length - (ds.length + 1)))[0]? = some (did, d) := by rw [← c3]; rfl
      simpa using this
    have hnone : didOf M s.mono (s.workers w).2 = none := by rw [h3]; rfl
    have hdid : absOf M s.mono did = Γ.base + Γ.sent s.client + 1 := by
      have : did = UInt32.ofNat _ := Γ.ids _ _ hget
      rw [this, ← hsent, h.mo]
      exact absOf_ofNat (by have := h.hi; omega) (by have := h.window hw hnone; have := Γ.small; omega)
    have hs' : Γ.sent (Client.add ds) = Γ.sent s.client + 1 := by rw [hsent]; simp only [Env.sent]; omega
    have hw1 : (upd s.workers w ((s.workers w).1, .computing did d)) w = ((s.workers w).1, .computing did d) := upd_same ..
    have hw2 : ∀ w', w' ≠ w → (upd s.workers w ((s.workers w).1, .computing did d)) w' = s.workers w' := fun _ e => upd_ne _ _ e
    refine { bw := ?_, pay := ?_, cl := ?_, ex := ?_, mo := h.mo, lo := h.lo, hi := ?_, fl1 := ?_, fl2 := ?_, fl3 := ?_, hold := ?_,
             holdLt := h.holdLt, wk := ?_, snd := ?_, svS := ?_, svP := ?_, svN := ?_ }
    · intro w' hw'
      by_cases e : w' = w
      · subst e; simp only [setW_workers, setW_mono, hw1]; exact h.bw w' hw'
      · simp only [setW_workers, setW_mono, hw2 w' e]; exact h.bw w' hw'
    · intro w' hw'
      by_cases e : w' = w
      · subst e; simp only [setW_workers, setW_mono, hw1, Env.payOk]; rw [hdid, hsent, ← hget]; congr 1; omega
      · simp only [setW_workers, setW_mono, hw2 w' e]; exact h.pay w' hw'
    · refine ⟨by omega, ?_⟩
      rw [show Γ.docs.length - ds.length = (Γ.docs.length - (ds.length + 1)) + 1 by omega, ← List.drop_drop, ← c3]; rfl
    · have := h.ex
      rw [h1] at this
      refine Eq.trans (sumN_congr fun w' _ => ?_) this
      by_cases e : w' = w
      · subst e; simp only [setW_workers, setW_mono, hw1, h3]; rfl
      · simp only [setW_workers, setW_mono, hw2 w' e]
    · simp only [hs']; have := h.hi; omega
    · intro w' hw' d' hd'
      simp only [hs']
      by_cases e : w' = w
      · subst e; simp only [setW_workers, setW_mono, hw1, didOf] at hd'; injection hd' with hd'; have := h.hi; omega
      · simp only [setW_workers, setW_mono, hw2 w' e] at hd'; have := h.fl1 w' hw' d' hd'; omega
    · intro w1 w2 hl1 hl2 d' g1 g2
      by_cases e1 : w1 = w <;> by_cases e2 : w2 = w
      · rw [e1, e2]
      · subst e1
        simp only [setW_workers, setW_mono, hw1, hw2 w2 e2, didOf] at g1 g2
        injection g1 with g1
        have := h.fl1 w2 hl2 d' g2; omega
      · subst e2
        simp only [setW_workers, setW_mono, hw1, hw2 w1 e1, didOf] at g1 g2
        injection g2 with g2
        have := h.fl1 w1 hl1 d' g1; omega
      · simp only [setW_workers, setW_mono, hw2 w1 e1, hw2 w2 e2] at g1 g2
        exact h.fl2 w1 w2 hl1 hl2 d' g1 g2
    · intro d' g1 g2
      simp only [hs'] at g2
      by_cases e : d' = Γ.base + Γ.sent s.client + 1
      · exact ⟨w, hw, by simp only [setW_workers, setW_mono, hw1, didOf, hdid, e]⟩
      · obtain ⟨w', a, b⟩ := h.fl3 d' g1 (by omega)
        refine ⟨w', a, ?_⟩
        rw [setW_workers, hw2 w' (by intro e; subst e; rw [hnone] at b; cases b)]; exact b
    · intro w' hw'
      by_cases e : w' = w
      · subst e
        have := h.hold w' hw'
        rw [h3] at this
        simp only [setW_workers, setW_mono, hw1]; exact this
      · simp only [setW_workers, setW_mono, hw2 w' e]; exact h.hold w' hw'
    · intro w' hw' did' out hx
      by_cases e : w' = w
      · subst e; simp only [setW_workers, setW_mono, hw1] at hx; cases hx
      · simp only [setW_workers, setW_mono, hw2 w' e] at hx
        rcases h.wk w' hw' did' out hx with a | ⟨w2, a, b⟩
        · exact .inl a
        · exact .inr ⟨w2, a, by rw [setW_workers, hw2 w2 (by intro e; subst e; rw [h3] at b; cases b)]; exact b⟩
    · intro w' hw' hx
      by_cases e : w' = w
      · subst e; simp only [setW_workers, setW_mono, hw1] at hx; cases hx
      · simp only [setW_workers, setW_mono, hw2 w' e] at hx ⊢; exact h.snd w' hw' hx
    · intro w' hw' did' ss hx j hj
      by_cases e : w' = w
      · subst e; simp only [setW_workers, setW_mono, hw1] at hx; cases hx
      · simp only [setW_workers, setW_mono, hw2 w' e] at hx
        have := h.svS w' hw' did' ss hx j hj
        rw [h1] at this; exact this
    · intro w' hw' did' hx j hj
      by_cases e : w' = w
      · subst e; simp only [setW_workers, setW_mono, hw1] at hx; cases hx
      · simp only [setW_workers, setW_mono, hw2 w' e] at hx
        have := h.svP w' hw' did' hx j hj
        rw [h1] at this; exact this
    · intro hall j hj
      have := h.svN (by
        intro w' hw'
        by_cases e : w' = w
        · subst e; rw [h3]; rfl
        · have := hall w' hw'; simp only [setW_workers, setW_mono, hw2 w' e] at this; exact this) j hj
      rw [h1] at this; exact this
  | startShut h1 =>
    refine ⟨M, ?_⟩
    apply h.caller (t := { s with client := .shut Γ.P.nw }) rfl rfl rfl rfl
    · exact Nat.le_refl _
    · rw [h1]; simp [Env.exitedN]
    · rw [h1]; simp [Env.sent]
    · rw [h1]; exact fun _ => False.elim
  | shut h1 hw h3 =>
    refine ⟨M, ?_⟩
    rename_i k w
    have hs' : Γ.sent (Client.shut k) = Γ.sent s.client := by rw [h1]; rfl
    have hw1 : (upd s.workers w ((s.workers w).1, .exited)) w = ((s.workers w).1, .exited) := upd_same ..
    have hw2 : ∀ w', w' ≠ w → (upd s.workers w ((s.workers w).1, .exited)) w' = s.workers w' := fun _ e => upd_ne _ _ e
    have key : ∀ {β : Type} (f : WSt D α → β), f .exited = f .idle →
        ∀ w', f ((upd s.workers w ((s.workers w).1, .exited)) w').2 = f (s.workers w').2 := by
      intro β f hf w'
      by_cases e : w' = w
      · subst e; rw [hw1, h3]; exact hf
      · rw [hw2 w' e]
    refine { bw := ?_, pay := ?_, cl := ?_, ex := ?_, mo := h.mo, lo := h.lo, hi := ?_, fl1 := ?_, fl2 := ?_, fl3 := ?_, hold := ?_,
             holdLt := h.holdLt, wk := ?_, snd := ?_, svS := ?_, svP := ?_, svN := ?_ }
    · intro w' hw'
      by_cases e : w' = w
      · subst e; simp only [setW_workers, setW_mono, hw1]; exact h.bw w' hw'
      · simp only [setW_workers, setW_mono, hw2 w' e]; exact h.bw w' hw'
    · intro w' hw'; simp only [setW_workers, setW_mono]; rw [key (Γ.payOk M s.mono) rfl]; exact h.pay w' hw'
    · have := h.cl; rw [h1] at this; exact Nat.le_of_succ_le this
    · have hcl := h.cl
      have hex := h.ex
      rw [h1] at hcl hex
      have hcl : k + 1 ≤ Γ.P.nw := hcl
      have := sumN_change (n := Γ.P.nw) (i := w) (f := fun i => exitedW ((upd s.workers w ((s.workers w).1, .exited)) i).2)
        (g := fun i => exitedW (s.workers i).2) hw (fun j _ e => by simp only [hw2 j e])
      simp only [hw1, h3, show exitedW (.exited : WSt D α) = 1 from rfl, show exitedW (.idle : WSt D α) = 0 from rfl] at this
      simp only [setW_workers, setW_mono, Env.exitedN] at hex ⊢
      omega
    · simp only [hs']; exact h.hi
    · intro w' hw'; simp only [setW_workers, setW_mono, hs']; rw [key (didOf M s.mono) rfl]; exact h.fl1 w' hw'
    · intro w1 w2 g1 g2 d; simp only [setW_workers, setW_mono]; rw [key (didOf M s.mono) rfl, key (didOf M s.mono) rfl]; exact h.fl2 w1 w2 g1 g2 d
    · intro d g1 g2
      simp only [hs'] at g2
      obtain ⟨w', a, b⟩ := h.fl3 d g1 g2
      exact ⟨w', a, by simp only [setW_workers, setW_mono]; rw [key (didOf M s.mono) rfl]; exact b⟩
    · intro w' hw'; simp only [setW_workers, setW_mono]; rw [key crit rfl]; exact h.hold w' hw'
    · intro w' hw' did' out hx
      by_cases e : w' = w
      · subst e; simp only [setW_workers, setW_mono, hw1] at hx; cases hx
      · simp only [setW_workers, setW_mono, hw2 w' e] at hx
        rcases h.wk w' hw' did' out hx with a | ⟨w2, a, b⟩
        · exact .inl a
        · exact .inr ⟨w2, a, by rw [setW_workers, hw2 w2 (by intro e; subst e; rw [h3] at b; cases b)]; exact b⟩
    · intro w' hw'; simp only [setW_workers, setW_mono]; rw [key busyW rfl, key (didOf M s.mono) rfl]; exact h.snd w' hw'
    · intro w' hw' did' ss hx j hj
      by_cases e : w' = w
      · subst e; simp only [setW_workers, setW_mono, hw1] at hx; cases hx
      · simp only [setW_workers, setW_mono, hw2 w' e] at hx
        have := h.svS w' hw' did' ss hx j hj
        rw [h1] at this; exact this
    · intro w' hw' did' hx j hj
      by_cases e : w' = w
      · subst e; simp only [setW_workers, setW_mono, hw1] at hx; cases hx
      · simp only [setW_workers, setW_mono, hw2 w' e] at hx
        have := h.svP w' hw' did' hx j hj
        rw [h1] at this; exact this
    · intro hall j hj
      have := h.svN (by
        intro w' hw'
        have := hall w' hw'; simp only [setW_workers, setW_mono] at this; rw [key busyW rfl] at this; exact this) j hj
      rw [h1] at this; exact this
  | startClose h1 =>
    refine ⟨M, ?_⟩
    apply h.caller (t := { s with client := .close 0 }) rfl rfl rfl rfl
    · exact Nat.zero_le _
    · rw [h1]; simp [Env.exitedN]
    · rw [h1]; simp [Env.sent]
    · rw [h1]; exact fun _ => False.elim
  | close h1 h2 =>
    refine ⟨M, ?_⟩
    rename_i j
    apply h.caller (t := { s with client := .close (j + 1) }) rfl rfl rfl rfl
    · exact h2
    · rw [h1]; simp [Env.exitedN]
    · rw [h1]; simp [Env.sent]
    · rw [h1]; exact fun _ a => Nat.lt_succ_of_lt a
  | closeDone h1 =>
    refine ⟨M, ?_⟩
    apply h.caller (t := { s with client := .done }) rfl rfl rfl rfl
    · trivial
    · rw [h1]; simp [Env.exitedN]
    · rw [h1]; simp [Env.sent]
    · exact fun _ _ => trivial
  | compute hw h2 h3 =>
    refine ⟨M, ?_⟩
    rename_i w did d b out
    obtain ⟨b', g1, g2⟩ := Γ.hcompute (s.workers w).1 did d (h.bw w hw)
    rw [h3] at g1
    injection g1 with g1
    injection g1 with g0 g1
    subst g0 g1
    have hpay := h.pay w hw
    rw [h2] at hpay
    refine h.move hw (b := b) (y := .locking did (Γ.out did d)) rfl rfl rfl rfl g2 ?_ (by rw [h2]; rfl) (by rw [h2]; rfl)
      ?_ (fun _ _ => Iff.rfl) (by rw [h2]; simp) (by intros; simp_all) (by simp [busyW]) (by intros; simp_all) (by intros; simp_all) (by rw [h2]; exact fun _ => rfl)
    · intro j
      have hp : Γ.docs[absOf M s.mono did - Γ.base - 1]? = some (did, d) := hpay
      simp only [Env.batch, hp]
    · have := h.hold w hw
      rw [h2] at this; exact this
  | lock hw h2 h3 =>
    refine ⟨M, ?_⟩
    rename_i w did out
    have hpay := h.pay w hw
    rw [h2] at hpay
    refine h.move hw (b := (s.workers w).1) (y := .checking did out) rfl rfl rfl rfl (h.bw w hw) hpay (by rw [h2]; rfl) (by rw [h2]; rfl)
      (by simp [crit]) ?_ (by rw [h2]; simp) (by intros; simp_all) (by simp [busyW]) (by intros; simp_all) (by intros; simp_all) (by rw [h2]; exact fun _ => rfl)
    intro w' hne
    simp only [h3, Option.some.injEq]
    exact ⟨fun e => absurd e.symm hne, fun e => by cases e⟩
  | pass hw h2 h3 =>
    refine ⟨M, ?_⟩
    rename_i w did out
    have hpay := h.pay w hw
    rw [h2] at hpay
    have hd : didOf M s.mono (s.workers w).2 = some (absOf M s.mono did) := by rw [h2]; rfl
    have hf := h.fl1 w hw _ hd
    have hm := (eq_pred (M := M)).mp h3
    have hhold := h.hold w hw
    rw [h2] at hhold
    refine h.move hw (b := (s.workers w).1) (y := .sending did fun i => .toSend (out i)) rfl rfl rfl rfl (h.bw w hw) trivial (by rw [h2]; rfl) (by rw [h2]; rfl)
      hhold (fun _ _ => Iff.rfl) (by rw [h2]; simp) (by intros; simp_all) (by simp [busyW, didOf, hm]) ?_ (by intros; simp_all) (by simp [busyW])
    intro did' ss he j hj
    injection he with e1 e2
    subst e1 e2
    refine ⟨by rw [← hm]; exact hpay j, h.svN ?_ j hj⟩
    intro w' hw'
    by_cases e : w' = w
    · subst e; rw [h2]; rfl
    · cases hb : busyW (s.workers w').2 with
      | false => rfl
      | true => exact absurd (h.crit_unique hw' hw (busyW_crit hb) (by rw [h2]; rfl)) e
  | wait hw h2 h3 =>
    refine ⟨M, ?_⟩
    rename_i w did out
    have hpay := h.pay w hw
    rw [h2] at hpay
    have hd : didOf M s.mono (s.workers w).2 = some (absOf M s.mono did) := by rw [h2]; rfl
    have hf := h.fl1 w hw _ hd
    have hm := mt (eq_pred (M := M)).mpr h3
    have hhold := (h.hold w hw).mp (by rw [h2]; rfl)
    refine h.move hw (b := (s.workers w).1) (y := .waiting did out) rfl rfl rfl rfl (h.bw w hw) hpay (by rw [h2]; rfl) (by rw [h2]; rfl)
      (by simp [crit]) ?_ (by rw [h2]; simp) (by intro a b e; injection e with e _; subst e; exact hm) (by simp [busyW]) (by intros; simp_all) (by intros; simp_all) (by rw [h2]; exact fun _ => rfl)
    intro w' hne
    simp only [hhold, Option.some.injEq]
    exact ⟨fun e => (nomatch e), fun e => absurd e.symm hne⟩
  | relock hw h2 h3 =>
    refine ⟨M, ?_⟩
    rename_i w did out
    have hpay := h.pay w hw
    rw [h2] at hpay
    refine h.move hw (b := (s.workers w).1) (y := .checking did out) rfl rfl rfl rfl (h.bw w hw) hpay (by rw [h2]; rfl) (by rw [h2]; rfl)
      (by simp [crit]) ?_ (by rw [h2]; simp) (by intros; simp_all) (by simp [busyW]) (by intros; simp_all) (by intros; simp_all) (by rw [h2]; exact fun _ => rfl)
    intro w' hne
    simp only [h3, Option.some.injEq]
    exact ⟨fun e => absurd e.symm hne, fun e => by cases e⟩
  | post hw hj h3 h4 h5 =>
    refine ⟨M, ?_⟩
    rename_i w j did ss ps
    have := h.svS w hw did ss h3 j hj
    rw [h4] at this
    obtain ⟨g1, g2, g3, g4⟩ := this
    refine h.talk hw hj h3 (upd_same ..) (fun w' e => upd_ne _ _ e) rfl rfl rfl rfl (fun i e => upd_ne _ _ e) ?_
    rw [upd_same]
    exact ⟨by rw [Γ.batches_succ h.lo, ← g3, g1], .inl ⟨by rw [g1], g4⟩⟩
  | cross hw hw' hne hj h1 h2 h3 h4 =>
    refine ⟨M, ?_⟩
    exact absurd (h.crit_unique hw hw' (by rw [h1]; rfl) (by rw [h3]; rfl)) hne
  | serve hj h2 h3 =>
    refine ⟨M, ?_⟩
    rename_i j ps x
    obtain ⟨w, did, ss, hw, g1, g2, g3, g4⟩ := h.sender hj (by intro m ⟨a, _⟩; rw [h2] at a; rcases a with a | ⟨a, _⟩ <;> cases a)
    rw [h2] at g4
    rcases g4 with ⟨a, b⟩ | ⟨a, _⟩
    · injection a with a
      subst a
      refine h.talk hw hj g1 (ss' := ss) (by rw [← g1]) (fun _ _ => rfl) rfl rfl rfl rfl (fun _ _ => rfl) ?_
      rw [g2]
      refine ⟨g3, .inr ⟨rfl, ?_⟩⟩
      rw [Γ.batches_succ h.lo, List.flatten_append, serveAll_append, b]
      simpa [bind, Except.bind] using h3
    · cases a
  | ack hw hj h3 h4 h5 =>
    refine ⟨M, ?_⟩
    rename_i w j did ss
    have := h.svS w hw did ss h3 j hj
    rw [h4] at this
    obtain ⟨g1, g2⟩ := this
    rcases g2 with ⟨a, _⟩ | ⟨a, b⟩
    · rw [h5] at a; cases a
    · refine h.talk hw hj h3 (upd_same ..) (fun w' e => upd_ne _ _ e) rfl rfl rfl rfl (fun i e => upd_ne _ _ e) ?_
      rw [upd_same]
      exact ⟨.inl rfl, g1, b⟩
  | ackClosed hw hj h3 h4 h5 =>
    refine ⟨M, ?_⟩
    exact absurd h5 (h.not_closed hw (by rw [h3]; rfl) _)
  | sent hw h2 h3 =>
    refine ⟨M, ?_⟩
    rename_i w did ss
    have hhold := h.hold w hw
    rw [h2] at hhold
    have hb := h.snd w hw (by rw [h2]; rfl)
    rw [h2] at hb
    refine h.move hw (b := (s.workers w).1) (y := .publish did) rfl rfl rfl rfl (h.bw w hw) trivial (by rw [h2]; rfl) (by rw [h2]; rfl)
      hhold (fun _ _ => Iff.rfl) (by rw [h2]; simp) (by intros; simp_all) (fun _ => hb) (by intros; simp_all) ?_ (by simp [busyW])
    intro _ _ j hj
    have := h.svS w hw did ss h2 j hj
    rw [h3 j hj] at this; exact this
  | publish hw h2 =>
    refine ⟨M + 1, ?_⟩
    rename_i w did
    have hb := h.snd w hw (by rw [h2]; rfl)
    rw [h2] at hb
    have hm : absOf M s.mono did = M + 1 := by injection hb
    have hdid : did = s.mono + 1 := by have := eq_pred.mpr hm; rw [this]; grind
    have hne0 : ∀ w', w' < Γ.P.nw → ∀ d', didOf M s.mono (s.workers w').2 = some d' →
        didOf (M + 1) (s.mono + 1) (s.workers w').2 = some d' ∧ (Γ.payOk M s.mono (s.workers w').2 → Γ.payOk (M + 1) (s.mono + 1) (s.workers w').2) := by
      intro w' hw' d' hd'
      have hlt := (h.fl1 w' hw' d' hd').1
      revert hd'
      cases (s.workers w').2 <;> simp only [didOf, Env.payOk, Option.some.injEq] <;> intro hd' <;>
        first
          | (cases hd'; done)
          | (subst hd'; rw [absOf_succ (fun e => by rw [e] at hlt; simp [absOf] at hlt)]; exact ⟨rfl, id⟩)
    have hback : ∀ w', w' < Γ.P.nw → ∀ d', didOf (M + 1) (s.mono + 1) (s.workers w').2 = some d' → didOf M s.mono (s.workers w').2 = some d' := by
      intro w' hw' d' hd'
      cases hx : didOf M s.mono (s.workers w').2 with
      | none =>
        revert hx hd'
        cases (s.workers w').2 <;> simp [didOf]
      | some e => rw [(hne0 w' hw' e hx).1] at hd'; exact hd'
    have hd : didOf M s.mono (s.workers w).2 = some (M + 1) := by rw [h2]; exact hb
    have hf := h.fl1 w hw _ hd
    have hw1 : (upd s.workers w ((s.workers w).1, .broadcasting)) w = ((s.workers w).1, .broadcasting) := upd_same ..
    have hw2 : ∀ w', w' ≠ w → (upd s.workers w ((s.workers w).1, .broadcasting)) w' = s.workers w' := fun _ e => upd_ne _ _ e
    have only : ∀ w', w' < Γ.P.nw → w' ≠ w → crit (s.workers w').2 = false := by
      intro w' hw' hne
      cases hc : crit (s.workers w').2 with
      | false => rfl
      | true => exact absurd (h.crit_unique hw' hw hc (by rw [h2]; rfl)) hne
    refine { bw := ?_, pay := ?_, cl := h.cl, ex := ?_, mo := by rw [hdid, h.mo, UInt32.ofNat_add]; rfl, lo := ?_, hi := ?_, fl1 := ?_, fl2 := ?_, fl3 := ?_, hold := ?_,
             holdLt := h.holdLt, wk := ?_, snd := ?_, svS := ?_, svP := ?_, svN := ?_ }
    · intro w' hw'
      by_cases e : w' = w
      · subst e; simp only [setW_workers, hw1]; exact h.bw w' hw'
      · simp only [setW_workers, hw2 w' e]; exact h.bw w' hw'
    · intro w' hw'
      by_cases e : w' = w
      · subst e; simp only [setW_workers, hw1]; trivial
      · simp only [setW_workers, hw2 w' e]
        cases hx : didOf M s.mono (s.workers w').2 with
        | none =>
          revert hx
          cases (s.workers w').2 <;> simp [didOf, Env.payOk]
        | some d' => rw [hdid]; exact (hne0 w' hw' d' hx).2 (h.pay w' hw')
    · refine Eq.trans (sumN_congr fun w' _ => ?_) h.ex
      by_cases e : w' = w
      · subst e; simp only [setW_workers, hw1, h2]; rfl
      · simp only [setW_workers, hw2 w' e]
    · have := h.lo; omega
    · exact hf.2
    · intro w' hw' d' hd'
      by_cases e : w' = w
      · subst e; simp only [setW_workers, hw1, didOf] at hd'; cases hd'
      · simp only [setW_workers, hw2 w' e] at hd'
        rw [hdid] at hd'
        have hd' := hback w' hw' d' hd'
        have a := h.fl1 w' hw' d' hd'
        have b : d' ≠ M + 1 := by
          intro e2; subst e2; exact e (h.fl2 w' w hw' hw _ hd' hd)
        exact ⟨by omega, a.2⟩
    · intro w1 w2 g1 g2 d k1 k2
      by_cases e1 : w1 = w
      · subst e1; simp only [setW_workers, hw1, didOf] at k1; cases k1
      · by_cases e2 : w2 = w
        · subst e2; simp only [setW_workers, hw1, didOf] at k2; cases k2
        · simp only [setW_workers, hw2 _ e1, hw2 _ e2] at k1 k2; rw [hdid] at k1 k2; exact h.fl2 w1 w2 g1 g2 d (hback w1 g1 d k1) (hback w2 g2 d k2)
    · intro d g1 g2
      obtain ⟨w', a, b⟩ := h.fl3 d (by omega) g2
      refine ⟨w', a, ?_⟩
      rw [setW_workers, hw2 w' (by intro e; subst e; rw [hd] at b; injection b with b; omega)]; rw [hdid]; exact (hne0 w' a d b).1
    · intro w' hw'
      by_cases e : w' = w
      · subst e
        have := h.hold w' hw'
        rw [h2] at this
        simp only [setW_workers, hw1]; exact this
      · simp only [setW_workers, hw2 w' e]; exact h.hold w' hw'
    · intro w' hw' did' out hx
      exact .inr ⟨w, hw, by rw [setW_workers, hw1]⟩
    · intro w' hw' hx
      by_cases e : w' = w
      · subst e; simp only [setW_workers, hw1] at hx; cases hx
      · simp only [setW_workers, hw2 w' e] at hx
        have := busyW_crit hx; rw [only w' hw' e] at this; cases this
    · intro w' hw' did' ss hx
      by_cases e : w' = w
      · subst e; simp only [setW_workers, hw1] at hx; cases hx
      · simp only [setW_workers, hw2 w' e] at hx
        have := only w' hw' e; rw [hx] at this; cases this
    · intro w' hw' did' hx
      by_cases e : w' = w
      · subst e; simp only [setW_workers, hw1] at hx; cases hx
      · simp only [setW_workers, hw2 w' e] at hx
        have := only w' hw' e; rw [hx] at this; cases this
    · intro _ j hj
      exact h.svP w hw did h2 j hj
  | broadcast hw h2 =>
    refine ⟨M, ?_⟩
    rename_i w
    have hv : ∀ w', (upd (fun i => ((s.workers i).1, wake (s.workers i).2)) w ((s.workers w).1, .unlocking)) w' =
        if w' = w then ((s.workers w).1, .unlocking) else ((s.workers w').1, wake (s.workers w').2) := fun w' => rfl
    have key : ∀ {β : Type} (f : WSt D α → β), f .unlocking = f .broadcasting → (∀ x, f (wake x) = f x) →
        ∀ w', f ((upd (fun i => ((s.workers i).1, wake (s.workers i).2)) w ((s.workers w).1, .unlocking)) w').2 = f (s.workers w').2 := by
      intro β f hf hk w'
      rw [hv]
      by_cases e : w' = w
      · subst e; rw [if_pos rfl, h2]; exact hf
      · rw [if_neg e]; exact hk _
    have hwake : ∀ (x y : WSt D α), wake x = y → (∀ did out, y ≠ .woken did out) → x = y := by
      intro x y e1 e2
      cases x <;> simp only [wake] at e1 <;> first | exact e1 | exact absurd e1.symm (e2 _ _)
    refine { bw := ?_, pay := ?_, cl := h.cl, ex := ?_, mo := h.mo, lo := h.lo, hi := h.hi, fl1 := ?_, fl2 := ?_, fl3 := ?_, hold := ?_,
             holdLt := h.holdLt, wk := ?_, snd := ?_, svS := ?_, svP := ?_, svN := ?_ }
    · intro w' hw'
      simp only [hv]
      split
      · rename_i e; subst e; exact h.bw w' hw'
      · exact h.bw w' hw'
    · intro w' hw'; simp only []; rw [key (Γ.payOk M s.mono) rfl (by intro x; cases x <;> rfl)]; exact h.pay w' hw'
    · exact Eq.trans (sumN_congr fun w' _ => key exitedW rfl (by intro x; cases x <;> rfl) w') h.ex
    · intro w' hw'; simp only []; rw [key (didOf M s.mono) rfl (by intro x; cases x <;> rfl)]; exact h.fl1 w' hw'
    · intro w1 w2 g1 g2 d; simp only []; rw [key (didOf M s.mono) rfl (by intro x; cases x <;> rfl), key (didOf M s.mono) rfl (by intro x; cases x <;> rfl)]; exact h.fl2 w1 w2 g1 g2 d
    · intro d g1 g2
      obtain ⟨w', a, b⟩ := h.fl3 d g1 g2
      exact ⟨w', a, by simp only []; rw [key (didOf M s.mono) rfl (by intro x; cases x <;> rfl)]; exact b⟩
    · intro w' hw'; simp only []; rw [key crit rfl (by intro x; cases x <;> rfl)]; exact h.hold w' hw'
    · intro w' hw' did out hx
      simp only [hv] at hx
      split at hx
      · cases hx
      · exact absurd hx (by cases (s.workers w').2 <;> simp [wake])
    · intro w' hw'; simp only []; rw [key busyW rfl (by intro x; cases x <;> rfl), key (didOf M s.mono) rfl (by intro x; cases x <;> rfl)]; exact h.snd w' hw'
    · intro w' hw' did ss hx
      simp only [hv] at hx
      split at hx
      · cases hx
      · exact h.svS w' hw' did ss (hwake _ _ hx (by simp))
    · intro w' hw' did hx
      simp only [hv] at hx
      split at hx
      · cases hx
      · exact h.svP w' hw' did (hwake _ _ hx (by simp))
    · intro hall
      apply h.svN
      intro w' hw'
      have := hall w' hw'
      simp only [] at this
      rw [key busyW rfl (by intro x; cases x <;> rfl)] at this; exact this
  | unlock hw h2 =>
    refine ⟨M, ?_⟩
    rename_i w
    have hhold := (h.hold w hw).mp (by rw [h2]; rfl)
    refine h.move hw (b := (s.workers w).1) (y := .idle) rfl rfl rfl rfl (h.bw w hw) trivial (by rw [h2]; rfl) (by rw [h2]; rfl)
      (by simp [crit]) ?_ (by rw [h2]; simp) (by intros; simp_all) (by simp [busyW]) (by intros; simp_all) (by intros; simp_all) (by rw [h2]; exact fun _ => rfl)
    intro w' hne
    simp only [hhold, Option.some.injEq]
    exact ⟨fun e => (nomatch e), fun e => absurd e.symm hne⟩
  | exit hj h2 h3 =>
    refine ⟨M, ?_⟩
    rename_i j
    have gone : ∀ w, w < Γ.P.nw → (s.workers w).2 = .exited := by
      intro w hw
      cases hx : (s.workers w).2 <;> first | rfl | exact absurd h3 (h.not_closed hw (by rw [hx]; rfl) _)
    refine { bw := h.bw, pay := h.pay, cl := h.cl, ex := h.ex, mo := h.mo, lo := h.lo, hi := h.hi, fl1 := h.fl1, fl2 := h.fl2, fl3 := h.fl3,
             hold := h.hold, holdLt := h.holdLt, wk := h.wk, snd := h.snd, svS := ?_, svP := ?_, svN := ?_ }
    · intro w hw did ss hx
      have e : (s.workers w).2 = .sending did ss := hx
      rw [gone w hw] at e; cases e
    · intro w hw did hx
      have e : (s.workers w).2 = .publish did := hx
      rw [gone w hw] at e; cases e
    · intro hall i hi
      have := h.svN hall i hi
      by_cases e : i = j
      · subst e
        simp only [St.setS, upd_same]
        exact ⟨.inr ⟨rfl, h3⟩, this.2⟩
      · simp only [St.setS, upd_ne _ _ e]; exact this

/-! ### No deadlock, no crash, and what the end looks like -/

theorem serves_prefix (hs : Γ.Serves) {j m : Nat} (hj : j < Γ.P.n) (hm : m ≤ Γ.base + Γ.docs.length) :
    ∃ x, serveAll Γ.P.serve (Γ.s0 j) (Γ.batches m j).flatten = .ok x := by
  obtain ⟨x, hx⟩ := hs j hj
  obtain ⟨l, hl⟩ := Γ.batches_prefix hm j
  rw [hl, List.flatten_append, serveAll_append] at hx
  cases h : serveAll Γ.P.serve (Γ.s0 j) (Γ.batches m j).flatten with
  | ok y => exact ⟨y, rfl⟩
  | error e => rw [h] at hx; cases hx

theorem sent_le (c : Client D) : Γ.sent c ≤ Γ.docs.length := by cases c <;> simp [Env.sent]

/-- a batch that was received can be added -/
theorem Inv.serves {s : St W S D α} (h : Inv Γ M s) (hs : Γ.Serves) {j : Nat} (hj : j < Γ.P.n) {ps : List α}
    (hb : (s.servers j).st = .busy ps) : ∃ x, serveAll Γ.P.serve (s.servers j).shard ps = .ok x := by
  obtain ⟨w, did, ss, hw, g1, g2, g3, g4⟩ := h.sender hj (by intro m ⟨a, _⟩; rw [hb] at a; rcases a with a | ⟨a, _⟩ <;> cases a)
  rw [hb] at g4
  rcases g4 with ⟨a, b⟩ | ⟨a, _⟩
  · injection a with a
    subst a
    have hf := h.fl1 w hw _ (h.snd w hw (by rw [g1]; rfl))
    obtain ⟨y, hy⟩ := serves_prefix hs hj (m := M + 1) (by have := sent_le (Γ := Γ) s.client; omega)
    rw [Γ.batches_succ h.lo, List.flatten_append, serveAll_append, b] at hy
    exact ⟨y, by simpa [bind, Except.bind] using hy⟩
  · cases a

/-- **No deadlock**: a state satisfying the invariant is final or can step. -/
theorem Inv.progress {s : St W S D α} (h : Inv Γ M s) (hs : Γ.Serves) (hnw : 0 < Γ.P.nw) : Final Γ.P s ∨ ∃ t, Step Γ.P s t := by
  cases hh : s.holder with
  | some w =>
    right
    have hw := h.holdLt w hh
    have hc := (h.hold w hw).mpr hh
    cases hx : (s.workers w).2 <;> rw [hx] at hc <;> simp [crit] at hc
    · rename_i did out
      by_cases hm : s.mono = did - 1
      · exact ⟨_, .pass hw hx hm⟩
      · exact ⟨_, .wait hw hx hm⟩
    · rename_i did ss
      rcases exists_or_forall Γ.P.n (fun j => ss j ≠ .done) with ⟨j, hj, hne⟩ | hall
      · have hok := h.svS w hw did ss hx j hj
        have hcl := h.not_closed hw (by rw [hx]; rfl) j
        cases he : ss j with
        | toSend ps =>
          rw [he] at hok
          exact ⟨_, .post hw hj hx he (Rest.idle hok.2 hcl)⟩
        | await =>
          rw [he] at hok
          rcases hok.2 with ⟨a, b⟩ | ⟨a, b⟩
          · obtain ⟨y, hy⟩ := h.serves hs hj a
            exact ⟨_, .serve hj a hy⟩
          · exact ⟨_, .ack hw hj hx he a⟩
        | done => exact absurd he hne
      · exact ⟨_, .sent hw hx fun j hj => Classical.not_not.mp (hall j hj)⟩
    · exact ⟨_, .publish hw hx⟩
    · exact ⟨_, .broadcast hw hx⟩
    · exact ⟨_, .unlock hw hx⟩
  | none =>
    -- nobody holds the lock
    rcases exists_or_forall Γ.P.nw (fun w => (s.workers w).2 ≠ .idle ∧ (s.workers w).2 ≠ .exited ∧ ∀ did out, (s.workers w).2 ≠ .waiting did out) with ⟨w, hw, h1, h2, h3⟩ | hall
    · right
      have hnc : crit (s.workers w).2 = false := by
        cases hc : crit (s.workers w).2 with
        | false => rfl
        | true => have := (h.hold w hw).mp hc; rw [hh] at this; cases this
      cases hx : (s.workers w).2 with
      | idle => exact absurd hx h1
      | exited => exact absurd hx h2
      | waiting did out => exact absurd hx (h3 did out)
      | computing did d =>
        obtain ⟨b, g1, _⟩ := Γ.hcompute (s.workers w).1 did d (h.bw w hw)
        exact ⟨_, .compute hw hx g1⟩
      | locking did out => exact ⟨_, .lock hw hx hh⟩
      | woken did out => exact ⟨_, .relock hw hx hh⟩
      | checking did out => rw [hx] at hnc; cases hnc
      | sending did ss => rw [hx] at hnc; cases hnc
      | publish did => rw [hx] at hnc; cases hnc
      | broadcasting => rw [hx] at hnc; cases hnc
      | unlocking => rw [hx] at hnc; cases hnc
    · -- nobody waits either
      have nobc : ¬ ∃ w', w' < Γ.P.nw ∧ (s.workers w').2 = .broadcasting := by
        intro ⟨w', a, b⟩
        have := (h.hold w' a).mp (by rw [b]; rfl)
        rw [hh] at this; cases this
      have nowait : ∀ w, w < Γ.P.nw → (s.workers w).2 = .idle ∨ (s.workers w).2 = .exited := by
        intro w hw
        have h1 := hall w hw
        by_cases e1 : (s.workers w).2 = .idle
        · exact .inl e1
        · by_cases e2 : (s.workers w).2 = .exited
          · exact .inr e2
          · exfalso
            apply h1
            refine ⟨e1, e2, fun did out hx => ?_⟩
            have hf := h.fl1 w hw (absOf M s.mono did) (by rw [hx]; rfl)
            obtain ⟨w', hw', hd'⟩ := h.fl3 (M + 1) (by omega) (by omega)
            cases hx' : (s.workers w').2 with
            | waiting did' out' =>
              rw [hx'] at hd'
              injection hd' with hd'
              rcases h.wk w' hw' did' out' hx' with a | a
              · exact a hd'
              · exact nobc a
            | _ =>
              first
              | (rw [hx'] at hd'; cases hd')
              | exact hall w' hw' ⟨by rw [hx']; simp, by rw [hx']; simp, by rw [hx']; simp⟩
      have allidle : ∀ w, w < Γ.P.nw → (s.workers w).2 ≠ .exited → (s.workers w).2 = .idle := fun w hw hne => (nowait w hw).resolve_right hne
      cases hc : s.client with
      | add ds =>
        right
        cases ds with
        | nil => exact ⟨_, .startShut hc⟩
        | cons x ds =>
          obtain ⟨did, d⟩ := x
          have hex := h.ex
          rw [hc] at hex
          obtain ⟨w, hw, hne⟩ := sum_lt_exists (f := fun i => (s.workers i).2) (n := Γ.P.nw) (by rw [hex]; exact hnw)
          exact ⟨_, .give hc hw (allidle w hw hne)⟩
      | shut k =>
        right
        cases k with
        | zero => exact ⟨_, .startClose hc⟩
        | succ k =>
          have hex := h.ex
          have hcl := h.cl
          rw [hc] at hex hcl
          have hcl : k + 1 ≤ Γ.P.nw := hcl
          obtain ⟨w, hw, hne⟩ := sum_lt_exists (f := fun i => (s.workers i).2) (n := Γ.P.nw) (by rw [hex]; simp only [Env.exitedN]; omega)
          exact ⟨_, .shut hc hw (allidle w hw hne)⟩
      | close j =>
        right
        have hcl := h.cl
        rw [hc] at hcl
        have hcl : j ≤ Γ.P.n := hcl
        by_cases e : j = Γ.P.n
        · subst e; exact ⟨_, .closeDone hc⟩
        · exact ⟨_, .close hc (by omega)⟩
      | done =>
        have gone : ∀ w, w < Γ.P.nw → (s.workers w).2 = .exited := by
          intro w hw
          cases hx : (s.workers w).2 <;> first | rfl | exact absurd (by rw [hc]; trivial) (h.not_closed hw (by rw [hx]; rfl) 0)
        rcases exists_or_forall Γ.P.n (fun j => (s.servers j).st ≠ .exited) with ⟨j, hj, hne⟩ | hall
        · right
          have := h.svN (by intro w hw; rw [gone w hw]; rfl) j hj
          exact ⟨_, .exit hj (this.1.resolve_right fun a => hne a.1) (by rw [hc]; trivial)⟩
        · exact .inl ⟨hc, gone, fun j hj => Classical.not_not.mp (hall j hj)⟩

/-- **No crash.** -/
theorem Inv.noCrash {s : St W S D α} (h : Inv Γ M s) (hs : Γ.Serves) : ¬ Crashes Γ.P s := by
  intro hc
  cases hc with
  | compute hw hx he =>
    obtain ⟨b, g, _⟩ := Γ.hcompute _ _ _ (h.bw _ hw)
    rw [g] at he; cases he
  | serve hj hb he =>
    obtain ⟨x, hx⟩ := h.serves hs hj hb
    rw [hx] at he; cases he
  | send hw hj hx _ hcl => exact h.not_closed hw (by rw [hx]; rfl) _ hcl
  | ack hj hx hcl =>
    obtain ⟨w, did, ss, hw, g1, _⟩ := h.sender hj (by intro m ⟨a, _⟩; rw [hx] at a; rcases a with a | ⟨a, _⟩ <;> cases a)
    exact h.not_closed hw (by rw [g1]; rfl) _ hcl

/-- once all shatterers have returned, all documents have been sent and the shards are at rest -/
theorem Inv.allDone {s : St W S D α} (h : Inv Γ M s) (hg : ∀ w, w < Γ.P.nw → (s.workers w).2 = .exited)
    (hc : ∀ ds, s.client ≠ .add ds) {j : Nat} (hj : j < Γ.P.n) :
    (s.servers j).log = Γ.batches (Γ.base + Γ.docs.length) j ∧
      serveAll Γ.P.serve (Γ.s0 j) (Γ.batches (Γ.base + Γ.docs.length) j).flatten = .ok (s.servers j).shard := by
  have hsent : Γ.sent s.client = Γ.docs.length := by
    cases hx : s.client with
    | add ds => exact absurd hx (hc ds)
    | _ => rfl
  have hm : M = Γ.base + Γ.docs.length := by
    have h1 := h.hi
    rw [hsent] at h1
    by_cases e : M = Γ.base + Γ.docs.length
    · exact e
    · obtain ⟨w, hw, hd⟩ := h.fl3 (Γ.base + Γ.docs.length) (by omega) (by omega)
      rw [hg w hw] at hd; cases hd
  have := h.svN (by intro w hw; rw [hg w hw]; rfl) j hj
  rw [hm] at this
  exact this.2

/-- reachable states satisfy the invariant -/
theorem reach {k : Nat} {s t : St W S D α} (h : Steps Γ.P k s t) (hi : Inv Γ M s) : ∃ M, Inv Γ M t := by
  induction h with
  | refl => exact ⟨M, hi⟩
  | step _ h2 ih => obtain ⟨M, h⟩ := ih hi; exact h.step h2

theorem Env.batches_take (Γ : Env W S D α) (m j : Nat) (hm : m ≤ Γ.base + Γ.docs.length) :
    Γ.batches m j = (Γ.docs.take (m - Γ.base)).map fun x => Γ.out x.1 x.2 j := by
  unfold Env.batches
  apply List.ext_getElem
  · simp; omega
  · intro i h1 h2
    simp only [List.length_map, List.length_range] at h1
    have hi : i < Γ.docs.length := by omega
    simp only [List.getElem_map, List.getElem_range, List.getElem_take, Env.batch]
    rw [show Γ.base + i + 1 - Γ.base - 1 = i by omega, List.getElem?_eq_getElem hi]

theorem Inv.done {s : St W S D α} (h : Inv Γ M s) (hc : s.client = .done) :
    ∀ w, w < Γ.P.nw → (s.workers w).2 = .exited := by
  intro w hw
  false_or_by_contra
  rename_i hne
  have hex := h.ex
  rw [hc] at hex
  change sumN _ _ = Γ.P.nw at hex
  have hle : ∀ v : WSt D α, exitedW v ≤ 1 := by intro v; cases v <;> simp [exitedW]
  have h0 : exitedW (s.workers w).2 = 0 := by
    generalize (s.workers w).2 = v at hne
    cases v <;> first | rfl | exact absurd rfl hne
  have h1 := sumN_change (f := fun w => exitedW (s.workers w).2)
    (g := fun i => if i = w then 1 else exitedW (s.workers i).2) hw (fun j _ hj => by simp [hj])
  have h2 := sumN_le (n := Γ.P.nw) (c := 1) (f := fun i => if i = w then 1 else exitedW (s.workers i).2) (g := fun _ => 0)
    (fun j _ => by have := hle (s.workers j).2; split <;> omega)
  rw [sumN_const] at h2
  simp only [if_true, h0] at h1
  omega


end Dupi.Sched.Wrap
