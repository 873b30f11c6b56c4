import Verif.Model.Sched
import Verif.Proof.SchedTerm
/-! # Invariant of the goroutine system -/

namespace Dupi.Sched

variable {W S D α : Type}

theorem serveAll_append (serve : S → α → M S) (l l' : List α) : ∀ s,
    serveAll serve s (l ++ l') = (serveAll serve s l >>= fun s => serveAll serve s l') := by
  induction l with
  | nil => intro s; rfl
  | cons p l ih =>
    intro s
    simp only [List.cons_append, serveAll, bind, Except.bind]
    cases serve s p with
    | error e => rfl
    | ok s' => exact ih s'

/-- What is known about a session from outside: the system, its documents, and what the computations
do. -/
structure Env (W S D α : Type) where
  P : Params W S D α
  b0 : Nat → W
  s0 : Nat → S
  last : UInt32
  /-- the documents of the session with their ids -/
  docs : List (UInt32 × D)
  /-- the posts of a document for each shard -/
  out : UInt32 → D → Nat → List α
  /-- what the blotters satisfy -/
  Iw : W → Prop
  iw0 : ∀ w, w < P.nw → Iw (b0 w)
  hcompute : ∀ b did d, Iw b → ∃ b', P.compute b did d = .ok (b', out did d) ∧ Iw b'
  ids : ∀ (k : Nat) x, docs[k]? = some x → x.1.toNat = last.toNat + k + 1

variable (Γ : Env W S D α)

/-- id of the last document before the session -/
def Env.base : Nat := Γ.last.toNat

/-- the posts of the document with id `did` for shard `j` -/
def Env.batch (did j : Nat) : List α :=
  match Γ.docs[did - Γ.base - 1]? with
  | some x => Γ.out x.1 x.2 j
  | none => []

/-- the batches for shard `j` of all documents of the session up to id `m` -/
def Env.batches (m j : Nat) : List (List α) := (List.range (m - Γ.base)).map fun i => Γ.batch (Γ.base + i + 1) j

/-- all of them can be added to the shards -/
def Env.Serves : Prop := ∀ j, j < Γ.P.n → ∃ x, serveAll Γ.P.serve (Γ.s0 j) (Γ.batches (Γ.base + Γ.docs.length) j).flatten = .ok x

theorem Env.batches_succ {m : Nat} (h : Γ.base ≤ m) (j : Nat) : Γ.batches (m + 1) j = Γ.batches m j ++ [Γ.batch (m + 1) j] := by
  unfold batches
  rw [show m + 1 - Γ.base = (m - Γ.base) + 1 by omega, List.range_succ, List.map_append]
  simp only [List.map_cons, List.map_nil]
  rw [show Γ.base + (m - Γ.base) + 1 = m + 1 by omega]

theorem Env.batches_prefix {m m' : Nat} (h : m ≤ m') (j : Nat) : ∃ l, Γ.batches m' j = Γ.batches m j ++ l := by
  unfold batches
  rw [show m' - Γ.base = (m - Γ.base) + ((m' - Γ.base) - (m - Γ.base)) by omega, List.range_add, List.map_append]
  exact ⟨_, rfl⟩

/-- how many documents the caller has handed over -/
def Env.sent : Client D → Nat
  | .add ds => Γ.docs.length - ds.length
  | _ => Γ.docs.length

/-- the document a shatterer has in hand -/
def didOf : WSt D α → Option Nat
  | .computing did _ => some did.toNat
  | .locking did _ => some did.toNat
  | .checking did _ => some did.toNat
  | .waiting did _ => some did.toNat
  | .woken did _ => some did.toNat
  | .sending did _ => some did.toNat
  | .publish did => some did.toNat
  | _ => none

/-- holding the lock -/
def crit : WSt D α → Bool
  | .checking .. => true
  | .sending .. => true
  | .publish .. => true
  | .broadcasting => true
  | .unlocking => true
  | _ => false

/-- talking to the shards -/
def busyW : WSt D α → Bool
  | .sending .. => true
  | .publish .. => true
  | _ => false

def exitedW : WSt D α → Nat
  | .exited => 1
  | _ => 0

/-- the data a shatterer has in hand is right -/
def Env.payOk : WSt D α → Prop
  | .computing did d => Γ.docs[did.toNat - Γ.base - 1]? = some (did, d)
  | .locking did out => ∀ j, out j = Γ.batch did.toNat j
  | .checking did out => ∀ j, out j = Γ.batch did.toNat j
  | .waiting did out => ∀ j, out j = Γ.batch did.toNat j
  | .woken did out => ∀ j, out j = Γ.batch did.toNat j
  | _ => True

def Env.clientOk : Client D → Prop
  | .add ds => ds.length ≤ Γ.docs.length ∧ ds = Γ.docs.drop (Γ.docs.length - ds.length)
  | .shut k => k ≤ Γ.P.nw
  | .close j => j ≤ Γ.P.n
  | .done => True

def Env.exitedN : Client D → Nat
  | .add .. => 0
  | .shut k => Γ.P.nw - k
  | _ => Γ.P.nw

/-- a server between batches, having received those up to document `m` -/
def Env.Rest (c : Client D) (x : Server S α) (j m : Nat) : Prop :=
  (x.st = .idle ∨ (x.st = .exited ∧ c.closed j)) ∧ x.log = Γ.batches m j ∧
    serveAll Γ.P.serve (Γ.s0 j) (Γ.batches m j).flatten = .ok x.shard

/-- a server in the middle of batch `m + 1` -/
def Env.Mid (x : Server S α) (j m : Nat) : Prop :=
  x.log = Γ.batches (m + 1) j ∧
  ((x.st = .busy (Γ.batch (m + 1) j) ∧ serveAll Γ.P.serve (Γ.s0 j) (Γ.batches m j).flatten = .ok x.shard) ∨
   (x.st = .acking ∧ serveAll Γ.P.serve (Γ.s0 j) (Γ.batches (m + 1) j).flatten = .ok x.shard))

/-- how a sender and its server are related -/
def Env.sendOk (c : Client D) (x : Server S α) (j m : Nat) : Sender α → Prop
  | .toSend ps => ps = Γ.batch (m + 1) j ∧ Γ.Rest c x j m
  | .await => Γ.Mid x j m
  | .done => Γ.Rest c x j (m + 1)

structure Inv (s : St W S D α) : Prop where
  bw : ∀ w, w < Γ.P.nw → Γ.Iw (s.workers w).1
  pay : ∀ w, w < Γ.P.nw → Γ.payOk (s.workers w).2
  cl : Γ.clientOk s.client
  ex : sumN Γ.P.nw (fun w => exitedW (s.workers w).2) = Γ.exitedN s.client
  lo : Γ.base ≤ s.mono.toNat
  hi : s.mono.toNat ≤ Γ.base + Γ.sent s.client
  fl1 : ∀ w, w < Γ.P.nw → ∀ d, didOf (s.workers w).2 = some d → s.mono.toNat < d ∧ d ≤ Γ.base + Γ.sent s.client
  fl2 : ∀ w w', w < Γ.P.nw → w' < Γ.P.nw → ∀ d, didOf (s.workers w).2 = some d → didOf (s.workers w').2 = some d → w = w'
  fl3 : ∀ d, s.mono.toNat < d → d ≤ Γ.base + Γ.sent s.client → ∃ w, w < Γ.P.nw ∧ didOf (s.workers w).2 = some d
  hold : ∀ w, w < Γ.P.nw → (crit (s.workers w).2 = true ↔ s.holder = some w)
  holdLt : ∀ w, s.holder = some w → w < Γ.P.nw
  wk : ∀ w, w < Γ.P.nw → ∀ did out, (s.workers w).2 = .waiting did out → did.toNat ≠ s.mono.toNat + 1 ∨
    ∃ w', w' < Γ.P.nw ∧ (s.workers w').2 = .broadcasting
  snd : ∀ w, w < Γ.P.nw → busyW (s.workers w).2 = true → didOf (s.workers w).2 = some (s.mono.toNat + 1)
  svS : ∀ w, w < Γ.P.nw → ∀ did ss, (s.workers w).2 = .sending did ss → ∀ j, j < Γ.P.n →
    Γ.sendOk s.client (s.servers j) j s.mono.toNat (ss j)
  svP : ∀ w, w < Γ.P.nw → ∀ did, (s.workers w).2 = .publish did → ∀ j, j < Γ.P.n → Γ.Rest s.client (s.servers j) j (s.mono.toNat + 1)
  svN : (∀ w, w < Γ.P.nw → busyW (s.workers w).2 = false) → ∀ j, j < Γ.P.n → Γ.Rest s.client (s.servers j) j s.mono.toNat

variable {Γ}

theorem Inv.init : Inv Γ (init Γ.b0 Γ.s0 Γ.last Γ.docs) where
  bw := Γ.iw0
  pay := fun _ _ => trivial
  cl := ⟨Nat.le_refl _, by simp⟩
  ex := by simp [Sched.init, exitedW, sumN_const, Env.exitedN]
  lo := Nat.le_refl _
  hi := by simp [Sched.init, Env.base]
  fl1 := by simp [Sched.init, didOf]
  fl2 := by simp [Sched.init, didOf]
  fl3 := by intro d h1 h2; simp [Sched.init, Env.sent, Env.base] at h1 h2; omega
  hold := by simp [Sched.init, crit]
  holdLt := by simp [Sched.init]
  wk := by simp [Sched.init]
  snd := by simp [Sched.init, busyW]
  svS := by simp [Sched.init]
  svP := by simp [Sched.init]
  svN := by
    intro _ j _
    refine ⟨.inl rfl, ?_, ?_⟩ <;> simp [Sched.init, Env.batches, Env.base, serveAll]

theorem setW_workers (s : St W S D α) (w : Nat) (v : WSt D α) : (s.setW w v).workers = upd s.workers w ((s.workers w).1, v) := rfl

theorem busyW_crit {x : WSt D α} (h : busyW x = true) : crit x = true := by cases x <;> simp_all [busyW, crit]

/-- A shatterer moves on with the same document, servers and `mono` unchanged. -/
theorem Inv.move {s t : St W S D α} (h : Inv Γ s) {w : Nat} (hw : w < Γ.P.nw) {b : W} {y : WSt D α}
    (e1 : t.workers = upd s.workers w (b, y)) (e2 : t.servers = s.servers) (e3 : t.mono = s.mono) (e4 : t.client = s.client)
    (hb : Γ.Iw b) (hp : Γ.payOk y) (hd : didOf y = didOf (s.workers w).2) (hex : exitedW y = exitedW (s.workers w).2)
    (hc : crit y = true ↔ t.holder = some w) (hc' : ∀ w', w' ≠ w → (t.holder = some w' ↔ s.holder = some w'))
    (hnb : (s.workers w).2 ≠ .broadcasting)
    (hwk : ∀ did out, y = .waiting did out → did.toNat ≠ s.mono.toNat + 1)
    (hsnd : busyW y = true → didOf y = some (s.mono.toNat + 1))
    (hS : ∀ did ss, y = .sending did ss → ∀ j, j < Γ.P.n → Γ.sendOk s.client (s.servers j) j s.mono.toNat (ss j))
    (hP : ∀ did, y = .publish did → ∀ j, j < Γ.P.n → Γ.Rest s.client (s.servers j) j (s.mono.toNat + 1))
    (hN : busyW y = false → busyW (s.workers w).2 = false) : Inv Γ t := by
  have hw1 : t.workers w = (b, y) := by rw [e1, upd_same]
  have hw2 : ∀ w', w' ≠ w → t.workers w' = s.workers w' := fun w' hne => by rw [e1, upd_ne _ _ hne]
  have hdid : ∀ w', didOf (t.workers w').2 = didOf (s.workers w').2 := fun w' => by
    by_cases e : w' = w
    · subst e; rw [hw1]; exact hd
    · rw [hw2 w' e]
  refine { bw := ?_, pay := ?_, cl := ?_, ex := ?_, lo := ?_, hi := ?_, fl1 := ?_, fl2 := ?_, fl3 := ?_, hold := ?_,
           holdLt := ?_, wk := ?_, snd := ?_, svS := ?_, svP := ?_, svN := ?_ }
  · intro w' hw'
    by_cases e : w' = w
    · subst e; rw [hw1]; exact hb
    · rw [hw2 w' e]; exact h.bw w' hw'
  · intro w' hw'
    by_cases e : w' = w
    · subst e; rw [hw1]; exact hp
    · rw [hw2 w' e]; exact h.pay w' hw'
  · rw [e4]; exact h.cl
  · rw [e4, ← h.ex]
    apply sumN_congr
    intro w' _
    by_cases e : w' = w
    · subst e; rw [hw1]; exact hex
    · rw [hw2 w' e]
  · rw [e3]; exact h.lo
  · rw [e3, e4]; exact h.hi
  · intro w' hw'; rw [hdid, e3, e4]; exact h.fl1 w' hw'
  · intro w1 w2 h1 h2 d; rw [hdid, hdid]; exact h.fl2 w1 w2 h1 h2 d
  · intro d h1 h2
    rw [e3] at h1; rw [e4] at h2
    obtain ⟨w', h3, h4⟩ := h.fl3 d h1 h2
    exact ⟨w', h3, by rw [hdid]; exact h4⟩
  · intro w' hw'
    by_cases e : w' = w
    · subst e; rw [hw1]; exact hc
    · rw [hw2 w' e, hc' w' e]; exact h.hold w' hw'
  · intro w' hw'
    by_cases e : w' = w
    · subst e; exact hw
    · exact h.holdLt w' ((hc' w' e).mp hw')
  · intro w' hw' did out hx
    by_cases e : w' = w
    · subst e; rw [hw1] at hx; rw [e3]; exact .inl (hwk did out hx)
    · rw [hw2 w' e] at hx
      rcases h.wk w' hw' did out hx with h1 | ⟨w2, h2, h3⟩
      · rw [e3]; exact .inl h1
      · refine .inr ⟨w2, h2, ?_⟩
        rw [hw2 w2 (by intro e; subst e; exact hnb h3)]; exact h3
  · intro w' hw' hx
    by_cases e : w' = w
    · subst e; rw [hw1] at hx ⊢; rw [e3]; exact hsnd hx
    · rw [hw2 w' e] at hx ⊢; rw [e3]; exact h.snd w' hw' hx
  · intro w' hw' did ss hx
    rw [e2, e3, e4]
    by_cases e : w' = w
    · subst e; rw [hw1] at hx; exact hS did ss hx
    · rw [hw2 w' e] at hx; exact h.svS w' hw' did ss hx
  · intro w' hw' did hx
    rw [e2, e3, e4]
    by_cases e : w' = w
    · subst e; rw [hw1] at hx; exact hP did hx
    · rw [hw2 w' e] at hx; exact h.svP w' hw' did hx
  · intro hall
    rw [e2, e3, e4]
    apply h.svN
    intro w' hw'
    by_cases e : w' = w
    · subst e; exact hN (by have := hall w' hw'; rwa [hw1] at this)
    · have := hall w' hw'; rwa [hw2 w' e] at this

/-- at most one shatterer talks to the shards -/
theorem Inv.crit_unique {s : St W S D α} (h : Inv Γ s) {w w' : Nat} (hw : w < Γ.P.nw) (hw' : w' < Γ.P.nw)
    (h1 : crit (s.workers w).2 = true) (h2 : crit (s.workers w').2 = true) : w = w' := by
  have a := (h.hold w hw).mp h1
  have b := (h.hold w' hw').mp h2
  rw [a] at b; injection b

/-- a shatterer that has not returned keeps the channels open -/
theorem Inv.not_closed {s : St W S D α} (h : Inv Γ s) {w : Nat} (hw : w < Γ.P.nw) (he : exitedW (s.workers w).2 = 0) (j : Nat) :
    ¬ s.client.closed j := by
  intro hcl
  have hn : Γ.exitedN s.client = Γ.P.nw := by
    cases hc : s.client <;> simp [hc, Client.closed] at hcl <;> rfl
  have hex := h.ex
  rw [hn] at hex
  have hle : ∀ i, exitedW (s.workers i).2 ≤ 1 := by intro i; cases (s.workers i).2 <;> simp [exitedW]
  have := sumN_change (n := Γ.P.nw) (i := w) (f := fun i => exitedW (s.workers i).2)
    (g := upd (fun i => exitedW (s.workers i).2) w 1) hw (fun j _ hj => by rw [upd_ne _ _ hj])
  rw [upd_same, hex, he] at this
  have hle2 := sumN_le (n := Γ.P.nw) (c := 0) (f := upd (fun i => exitedW (s.workers i).2) w 1) (g := fun _ => 1)
    (by intro i _; by_cases e : i = w
        · subst e; simp [upd_same]
        · rw [upd_ne _ _ e]; exact hle i)
  rw [sumN_const] at hle2
  omega

/-- Only the caller moves, to a later phase. -/
theorem Inv.caller {s t : St W S D α} (h : Inv Γ s) (e1 : t.workers = s.workers) (e2 : t.servers = s.servers)
    (e3 : t.mono = s.mono) (e4 : t.holder = s.holder) (hok : Γ.clientOk t.client) (hex : Γ.exitedN t.client = Γ.exitedN s.client)
    (hs : Γ.sent t.client = Γ.sent s.client) (hc : ∀ j, s.client.closed j → t.client.closed j) : Inv Γ t := by
  have hrest : ∀ x j m, Γ.Rest s.client x j m → Γ.Rest t.client x j m := by
    intro x j m ⟨h1, h2⟩
    exact ⟨h1.imp id (fun ⟨a, b⟩ => ⟨a, hc j b⟩), h2⟩
  refine { bw := ?_, pay := ?_, cl := hok, ex := ?_, lo := ?_, hi := ?_, fl1 := ?_, fl2 := ?_, fl3 := ?_, hold := ?_,
           holdLt := ?_, wk := ?_, snd := ?_, svS := ?_, svP := ?_, svN := ?_ }
  · rw [e1]; exact h.bw
  · rw [e1]; exact h.pay
  · rw [e1, hex]; exact h.ex
  · rw [e3]; exact h.lo
  · rw [e3, hs]; exact h.hi
  · rw [e1, e3, hs]; exact h.fl1
  · rw [e1]; exact h.fl2
  · rw [e1, e3, hs]; exact h.fl3
  · rw [e1, e4]; exact h.hold
  · rw [e4]; exact h.holdLt
  · rw [e1, e3]; exact h.wk
  · rw [e1, e3]; exact h.snd
  · rw [e1, e2, e3]
    intro w hw did ss hx j hj
    have := h.svS w hw did ss hx j hj
    revert this
    cases ss j with
    | toSend ps => exact fun ⟨a, b⟩ => ⟨a, hrest _ _ _ b⟩
    | await => exact id
    | done => exact hrest _ _ _
  · rw [e1, e2, e3]; exact fun w hw did hx j hj => hrest _ _ _ (h.svP w hw did hx j hj)
  · rw [e1, e2, e3]; exact fun ha j hj => hrest _ _ _ (h.svN ha j hj)

/-- The shatterer that talks to the shards and the server of shard `j` move. -/
theorem Inv.talk {s t : St W S D α} (h : Inv Γ s) {w j : Nat} (hw : w < Γ.P.nw) (hj : j < Γ.P.n) {did : UInt32}
    {ss ss' : Nat → Sender α} {x : Server S α} (hst : (s.workers w).2 = .sending did ss)
    (e1 : t.workers w = ((s.workers w).1, .sending did ss')) (e1' : ∀ w', w' ≠ w → t.workers w' = s.workers w')
    (e2 : t.servers = upd s.servers j x) (e3 : t.mono = s.mono) (e4 : t.client = s.client) (e5 : t.holder = s.holder)
    (hss : ∀ i, i ≠ j → ss' i = ss i) (hx : Γ.sendOk s.client x j s.mono.toNat (ss' j)) : Inv Γ t := by
  have key : ∀ {β : Type} (f : WSt D α → β), f (.sending did ss') = f (.sending did ss) →
      ∀ w', f (t.workers w').2 = f (s.workers w').2 := by
    intro β f hf w'
    by_cases e : w' = w
    · subst e; rw [e1, hst]; exact hf
    · rw [e1' w' e]
  have only : ∀ w', w' < Γ.P.nw → w' ≠ w → crit (s.workers w').2 = false := by
    intro w' hw' hne
    cases hc : crit (s.workers w').2 with
    | false => rfl
    | true => exact absurd (h.crit_unique hw' hw hc (by rw [hst]; rfl)) hne
  refine { bw := ?_, pay := ?_, cl := ?_, ex := ?_, lo := ?_, hi := ?_, fl1 := ?_, fl2 := ?_, fl3 := ?_, hold := ?_,
           holdLt := ?_, wk := ?_, snd := ?_, svS := ?_, svP := ?_, svN := ?_ }
  · intro w' hw'
    by_cases e : w' = w
    · subst e; rw [e1]; exact h.bw w' hw'
    · rw [e1' w' e]; exact h.bw w' hw'
  · intro w' hw'; rw [key Γ.payOk rfl]; exact h.pay w' hw'
  · rw [e4]; exact h.cl
  · rw [e4, ← h.ex]; exact sumN_congr fun w' _ => key exitedW rfl w'
  · rw [e3]; exact h.lo
  · rw [e3, e4]; exact h.hi
  · intro w' hw'; rw [key didOf rfl, e3, e4]; exact h.fl1 w' hw'
  · intro w1 w2 h1 h2 d; rw [key didOf rfl, key didOf rfl]; exact h.fl2 w1 w2 h1 h2 d
  · intro d h1 h2
    rw [e3] at h1; rw [e4] at h2
    obtain ⟨w', h3, h4⟩ := h.fl3 d h1 h2
    exact ⟨w', h3, by rw [key didOf rfl]; exact h4⟩
  · intro w' hw'; rw [key crit rfl, e5]; exact h.hold w' hw'
  · rw [e5]; exact h.holdLt
  · intro w' hw' did' out hx'
    have hne : w' ≠ w := by intro e; subst e; rw [e1] at hx'; cases hx'
    rw [e1' w' hne] at hx'
    rcases h.wk w' hw' did' out hx' with h1 | ⟨w2, h2, h3⟩
    · rw [e3]; exact .inl h1
    · refine .inr ⟨w2, h2, ?_⟩
      rw [e1' w2 (by intro e; subst e; rw [hst] at h3; cases h3)]; exact h3
  · intro w' hw'; rw [key busyW rfl, key didOf rfl, e3]; exact h.snd w' hw'
  · intro w' hw' did' ss2 hx' i hi
    have he : w' = w := by
      by_cases e : w' = w
      · exact e
      · rw [e1' w' e] at hx'; have := only w' hw' e; rw [hx'] at this; cases this
    subst he
    rw [e1] at hx'
    injection hx' with a b
    subst b
    rw [e2, e3, e4]
    by_cases e : i = j
    · subst e; rw [upd_same]; exact hx
    · rw [upd_ne _ _ e, hss i e]; exact h.svS w' hw' did ss hst i hi
  · intro w' hw' did' hx'
    by_cases e : w' = w
    · subst e; rw [e1] at hx'; cases hx'
    · rw [e1' w' e] at hx'; have := only w' hw' e; rw [hx'] at this; cases this
  · intro hall
    have := hall w hw
    rw [e1] at this; cases this

/-- who is at the other end of a shard that is not at rest -/
theorem Inv.sender {s : St W S D α} (h : Inv Γ s) {j : Nat} (hj : j < Γ.P.n) (hne : ∀ m, ¬ Γ.Rest s.client (s.servers j) j m) :
    ∃ w did ss, w < Γ.P.nw ∧ (s.workers w).2 = .sending did ss ∧ ss j = .await ∧ Γ.Mid (s.servers j) j s.mono.toNat := by
  by_cases hb : ∀ w, w < Γ.P.nw → busyW (s.workers w).2 = false
  · exact absurd (h.svN hb j hj) (hne _)
  · simp only [Classical.not_forall] at hb
    obtain ⟨w, hw, hb⟩ := hb
    cases hx : (s.workers w).2 <;> rw [hx] at hb <;> simp [busyW] at hb
    · rename_i did ss
      have := h.svS w hw did ss hx j hj
      refine ⟨w, did, ss, hw, hx, ?_⟩
      revert this
      cases ss j with
      | toSend ps => exact fun ⟨_, b⟩ => absurd b (hne _)
      | await => exact fun a => ⟨rfl, a⟩
      | done => exact fun b => absurd b (hne _)
    · exact absurd (h.svP w hw _ hx j hj) (hne _)

theorem Rest.idle {c : Client D} {x : Server S α} {j m : Nat} (h : Γ.Rest c x j m) (hc : ¬ c.closed j) : x.st = .idle :=
  h.1.resolve_right fun a => hc a.2

theorem toNat_ofNat {k : Nat} (h : k < 2 ^ 32) : (UInt32.ofNat k).toNat = k := by
  simp only [UInt32.toNat_ofNat']; omega

theorem eq_pred {m did : UInt32} {d : Nat} (h1 : d = did.toNat) (h2 : m.toNat < d) : m = did - 1 ↔ d = m.toNat + 1 := by
  subst h1
  have h3 := did.toNat_lt
  have h4 : (did - 1).toNat = did.toNat - 1 := by
    rw [UInt32.toNat_sub_of_le]
    · rfl
    · rw [UInt32.le_iff_toNat_le]; simp; omega
  rw [← UInt32.toNat_inj, h4]; omega

theorem Inv.step {s t : St W S D α} (h : Inv Γ s) (st : Step Γ.P s t) : Inv Γ t := by
  cases st with
  | give h1 hw h3 =>
    rename_i did d ds w
    have hcl := h.cl
    rw [h1] at hcl
    obtain ⟨c2, c3⟩ := hcl
    simp only [List.length_cons] at c2 c3
    have hsent : Γ.sent s.client = Γ.docs.length - (ds.length + 1) := by rw [h1]; rfl
    have hbase : Γ.base = Γ.last.toNat := rfl
    have hget : Γ.docs[Γ.docs.length - (ds.length + 1)]? = some (did, d) := by
      have : (Γ.docs.drop (Γ.docs.length - (ds.length + 1)))[0]? = some (did, d) := by rw [← c3]; rfl
      simpa using this
    have hdid : did.toNat = Γ.base + Γ.sent s.client + 1 := by
      have := Γ.ids _ _ hget
      rw [hsent, hbase]; exact this
    have hs' : Γ.sent (Client.add ds) = Γ.sent s.client + 1 := by rw [hsent]; simp only [Env.sent]; omega
    have hw1 : (upd s.workers w ((s.workers w).1, .computing did d)) w = ((s.workers w).1, .computing did d) := upd_same ..
    have hw2 : ∀ w', w' ≠ w → (upd s.workers w ((s.workers w).1, .computing did d)) w' = s.workers w' := fun _ e => upd_ne _ _ e
    have hnone : didOf (s.workers w).2 = none := by rw [h3]; rfl
    refine { bw := ?_, pay := ?_, cl := ?_, ex := ?_, lo := h.lo, hi := ?_, fl1 := ?_, fl2 := ?_, fl3 := ?_, hold := ?_,
             holdLt := h.holdLt, wk := ?_, snd := ?_, svS := ?_, svP := ?_, svN := ?_ }
    · intro w' hw'
      by_cases e : w' = w
      · subst e; simp only [setW_workers, hw1]; exact h.bw w' hw'
      · simp only [setW_workers, hw2 w' e]; exact h.bw w' hw'
    · intro w' hw'
      by_cases e : w' = w
      · subst e; simp only [setW_workers, hw1, Env.payOk]; rw [hdid, hsent, ← hget]; congr 1; omega
      · simp only [setW_workers, hw2 w' e]; exact h.pay w' hw'
    · refine ⟨by omega, ?_⟩
      rw [show Γ.docs.length - ds.length = (Γ.docs.length - (ds.length + 1)) + 1 by omega, ← List.drop_drop, ← c3]; rfl
    · have := h.ex
      rw [h1] at this
      refine Eq.trans (sumN_congr fun w' _ => ?_) this
      by_cases e : w' = w
      · subst e; simp only [setW_workers, hw1, h3]; rfl
      · simp only [setW_workers, hw2 w' e]
    · simp only [hs']; have := h.hi; simp only [St.setW]; omega
    · intro w' hw' d' hd'
      simp only [hs']
      by_cases e : w' = w
      · subst e; simp only [setW_workers, hw1, didOf] at hd'; injection hd' with hd'; have := h.hi; simp only [St.setW]; omega
      · simp only [setW_workers, hw2 w' e] at hd'; have := h.fl1 w' hw' d' hd'; simp only [St.setW]; omega
    · intro w1 w2 hl1 hl2 d' g1 g2
      by_cases e1 : w1 = w <;> by_cases e2 : w2 = w
      · rw [e1, e2]
      · subst e1
        simp only [setW_workers, hw1, hw2 w2 e2, didOf] at g1 g2
        injection g1 with g1
        have := h.fl1 w2 hl2 d' g2; omega
      · subst e2
        simp only [setW_workers, hw1, hw2 w1 e1, didOf] at g1 g2
        injection g2 with g2
        have := h.fl1 w1 hl1 d' g1; omega
      · simp only [setW_workers, hw2 w1 e1, hw2 w2 e2] at g1 g2
        exact h.fl2 w1 w2 hl1 hl2 d' g1 g2
    · intro d' g1 g2
      simp only [hs'] at g2
      by_cases e : d' = Γ.base + Γ.sent s.client + 1
      · exact ⟨w, hw, by simp only [setW_workers, hw1, didOf, hdid, e]⟩
      · obtain ⟨w', a, b⟩ := h.fl3 d' g1 (by omega)
        refine ⟨w', a, ?_⟩
        rw [setW_workers, hw2 w' (by intro e; subst e; rw [hnone] at b; cases b)]; exact b
    · intro w' hw'
      by_cases e : w' = w
      · subst e
        have := h.hold w' hw'
        rw [h3] at this
        simp only [setW_workers, hw1]; exact this
      · simp only [setW_workers, hw2 w' e]; exact h.hold w' hw'
    · intro w' hw' did' out hx
      by_cases e : w' = w
      · subst e; simp only [setW_workers, hw1] at hx; cases hx
      · simp only [setW_workers, hw2 w' e] at hx
        rcases h.wk w' hw' did' out hx with a | ⟨w2, a, b⟩
        · exact .inl a
        · exact .inr ⟨w2, a, by rw [setW_workers, hw2 w2 (by intro e; subst e; rw [h3] at b; cases b)]; exact b⟩
    · intro w' hw' hx
      by_cases e : w' = w
      · subst e; simp only [setW_workers, hw1] at hx; cases hx
      · simp only [setW_workers, hw2 w' e] at hx ⊢; exact h.snd w' hw' hx
    · intro w' hw' did' ss hx j hj
      by_cases e : w' = w
      · subst e; simp only [setW_workers, hw1] at hx; cases hx
      · simp only [setW_workers, hw2 w' e] at hx
        have := h.svS w' hw' did' ss hx j hj
        rw [h1] at this; exact this
    · intro w' hw' did' hx j hj
      by_cases e : w' = w
      · subst e; simp only [setW_workers, hw1] at hx; cases hx
      · simp only [setW_workers, hw2 w' e] at hx
        have := h.svP w' hw' did' hx j hj
        rw [h1] at this; exact this
    · intro hall j hj
      have := h.svN (by
        intro w' hw'
        by_cases e : w' = w
        · subst e; rw [h3]; rfl
        · have := hall w' hw'; simp only [setW_workers, hw2 w' e] at this; exact this) j hj
      rw [h1] at this; exact this
  | startShut h1 =>
    apply h.caller (t := { s with client := .shut Γ.P.nw }) rfl rfl rfl rfl
    · exact Nat.le_refl _
    · rw [h1]; simp [Env.exitedN]
    · rw [h1]; simp [Env.sent]
    · rw [h1]; exact fun _ => False.elim
  | shut h1 hw h3 =>
    rename_i k w
    have hs' : Γ.sent (Client.shut k) = Γ.sent s.client := by rw [h1]; rfl
    have hw1 : (upd s.workers w ((s.workers w).1, .exited)) w = ((s.workers w).1, .exited) := upd_same ..
    have hw2 : ∀ w', w' ≠ w → (upd s.workers w ((s.workers w).1, .exited)) w' = s.workers w' := fun _ e => upd_ne _ _ e
    have key : ∀ {β : Type} (f : WSt D α → β), f .exited = f .idle →
        ∀ w', f ((upd s.workers w ((s.workers w).1, .exited)) w').2 = f (s.workers w').2 := by
      intro β f hf w'
      by_cases e : w' = w
      · subst e; rw [hw1, h3]; exact hf
      · rw [hw2 w' e]
    refine { bw := ?_, pay := ?_, cl := ?_, ex := ?_, lo := h.lo, hi := ?_, fl1 := ?_, fl2 := ?_, fl3 := ?_, hold := ?_,
             holdLt := h.holdLt, wk := ?_, snd := ?_, svS := ?_, svP := ?_, svN := ?_ }
    · intro w' hw'
      by_cases e : w' = w
      · subst e; simp only [setW_workers, hw1]; exact h.bw w' hw'
      · simp only [setW_workers, hw2 w' e]; exact h.bw w' hw'
    · intro w' hw'; simp only [setW_workers]; rw [key Γ.payOk rfl]; exact h.pay w' hw'
    · have := h.cl; rw [h1] at this; exact Nat.le_of_succ_le this
    · have hcl := h.cl
      have hex := h.ex
      rw [h1] at hcl hex
      have hcl : k + 1 ≤ Γ.P.nw := hcl
      have := sumN_change (n := Γ.P.nw) (i := w) (f := fun i => exitedW ((upd s.workers w ((s.workers w).1, .exited)) i).2)
        (g := fun i => exitedW (s.workers i).2) hw (fun j _ e => by simp only [hw2 j e])
      simp only [hw1, h3, show exitedW (.exited : WSt D α) = 1 from rfl, show exitedW (.idle : WSt D α) = 0 from rfl] at this
      simp only [setW_workers, Env.exitedN] at hex ⊢
      omega
    · simp only [hs']; exact h.hi
    · intro w' hw'; simp only [setW_workers, hs']; rw [key didOf rfl]; exact h.fl1 w' hw'
    · intro w1 w2 g1 g2 d; simp only [setW_workers]; rw [key didOf rfl, key didOf rfl]; exact h.fl2 w1 w2 g1 g2 d
    · intro d g1 g2
      simp only [hs'] at g2
      obtain ⟨w', a, b⟩ := h.fl3 d g1 g2
      exact ⟨w', a, by simp only [setW_workers]; rw [key didOf rfl]; exact b⟩
    · intro w' hw'; simp only [setW_workers]; rw [key crit rfl]; exact h.hold w' hw'
    · intro w' hw' did' out hx
      by_cases e : w' = w
      · subst e; simp only [setW_workers, hw1] at hx; cases hx
      · simp only [setW_workers, hw2 w' e] at hx
        rcases h.wk w' hw' did' out hx with a | ⟨w2, a, b⟩
        · exact .inl a
        · exact .inr ⟨w2, a, by rw [setW_workers, hw2 w2 (by intro e; subst e; rw [h3] at b; cases b)]; exact b⟩
    · intro w' hw'; simp only [setW_workers]; rw [key busyW rfl, key didOf rfl]; exact h.snd w' hw'
    · intro w' hw' did' ss hx j hj
      by_cases e : w' = w
      · subst e; simp only [setW_workers, hw1] at hx; cases hx
      · simp only [setW_workers, hw2 w' e] at hx
        have := h.svS w' hw' did' ss hx j hj
        rw [h1] at this; exact this
    · intro w' hw' did' hx j hj
      by_cases e : w' = w
      · subst e; simp only [setW_workers, hw1] at hx; cases hx
      · simp only [setW_workers, hw2 w' e] at hx
        have := h.svP w' hw' did' hx j hj
        rw [h1] at this; exact this
    · intro hall j hj
      have := h.svN (by
        intro w' hw'
        have := hall w' hw'; simp only [setW_workers] at this; rw [key busyW rfl] at this; exact this) j hj
      rw [h1] at this; exact this
  | startClose h1 =>
    apply h.caller (t := { s with client := .close 0 }) rfl rfl rfl rfl
    · exact Nat.zero_le _
    · rw [h1]; simp [Env.exitedN]
    · rw [h1]; simp [Env.sent]
    · rw [h1]; exact fun _ => False.elim
  | close h1 h2 =>
    rename_i j
    apply h.caller (t := { s with client := .close (j + 1) }) rfl rfl rfl rfl
    · exact h2
    · rw [h1]; simp [Env.exitedN]
    · rw [h1]; simp [Env.sent]
    · rw [h1]; exact fun _ a => Nat.lt_succ_of_lt a
  | closeDone h1 =>
    apply h.caller (t := { s with client := .done }) rfl rfl rfl rfl
    · trivial
    · rw [h1]; simp [Env.exitedN]
    · rw [h1]; simp [Env.sent]
    · exact fun _ _ => trivial
  | compute hw h2 h3 =>
    rename_i w did d b out
    obtain ⟨b', g1, g2⟩ := Γ.hcompute (s.workers w).1 did d (h.bw w hw)
    rw [h3] at g1
    injection g1 with g1
    injection g1 with g0 g1
    subst g0 g1
    have hpay := h.pay w hw
    rw [h2] at hpay
    refine h.move hw (b := b) (y := .locking did (Γ.out did d)) rfl rfl rfl rfl g2 ?_ (by rw [h2]; rfl) (by rw [h2]; rfl)
      ?_ (fun _ _ => Iff.rfl) (by rw [h2]; simp) (by intros; simp_all) (by simp [busyW]) (by intros; simp_all) (by intros; simp_all) (by rw [h2]; exact fun _ => rfl)
    · intro j
      have hp : Γ.docs[did.toNat - Γ.base - 1]? = some (did, d) := hpay
      simp only [Env.batch, hp]
    · have := h.hold w hw
      rw [h2] at this; exact this
  | lock hw h2 h3 =>
    rename_i w did out
    have hpay := h.pay w hw
    rw [h2] at hpay
    refine h.move hw (b := (s.workers w).1) (y := .checking did out) rfl rfl rfl rfl (h.bw w hw) hpay (by rw [h2]; rfl) (by rw [h2]; rfl)
      (by simp [crit]) ?_ (by rw [h2]; simp) (by intros; simp_all) (by simp [busyW]) (by intros; simp_all) (by intros; simp_all) (by rw [h2]; exact fun _ => rfl)
    intro w' hne
    simp only [h3, Option.some.injEq]
    exact ⟨fun e => absurd e.symm hne, fun e => by cases e⟩
  | pass hw h2 h3 =>
    rename_i w did out
    have hpay := h.pay w hw
    rw [h2] at hpay
    have hd : didOf (s.workers w).2 = some did.toNat := by rw [h2]; rfl
    have hf := h.fl1 w hw _ hd
    have hm := (eq_pred rfl hf.1).mp h3
    have hhold := h.hold w hw
    rw [h2] at hhold
    refine h.move hw (b := (s.workers w).1) (y := .sending did fun i => .toSend (out i)) rfl rfl rfl rfl (h.bw w hw) trivial (by rw [h2]; rfl) (by rw [h2]; rfl)
      hhold (fun _ _ => Iff.rfl) (by rw [h2]; simp) (by intros; simp_all) (by simp [busyW, didOf, hm]) ?_ (by intros; simp_all) (by simp [busyW])
    intro did' ss he j hj
    injection he with e1 e2
    subst e1 e2
    refine ⟨by rw [← hm]; exact hpay j, h.svN ?_ j hj⟩
    intro w' hw'
    by_cases e : w' = w
    · subst e; rw [h2]; rfl
    · cases hb : busyW (s.workers w').2 with
      | false => rfl
      | true => exact absurd (h.crit_unique hw' hw (busyW_crit hb) (by rw [h2]; rfl)) e
  | wait hw h2 h3 =>
    rename_i w did out
    have hpay := h.pay w hw
    rw [h2] at hpay
    have hd : didOf (s.workers w).2 = some did.toNat := by rw [h2]; rfl
    have hf := h.fl1 w hw _ hd
    have hm := mt (eq_pred rfl hf.1).mpr h3
    have hhold := (h.hold w hw).mp (by rw [h2]; rfl)
    refine h.move hw (b := (s.workers w).1) (y := .waiting did out) rfl rfl rfl rfl (h.bw w hw) hpay (by rw [h2]; rfl) (by rw [h2]; rfl)
      (by simp [crit]) ?_ (by rw [h2]; simp) (by intro a b e; injection e with e _; subst e; exact hm) (by simp [busyW]) (by intros; simp_all) (by intros; simp_all) (by rw [h2]; exact fun _ => rfl)
    intro w' hne
    simp only [hhold, Option.some.injEq]
    exact ⟨fun e => (nomatch e), fun e => absurd e.symm hne⟩
  | relock hw h2 h3 =>
    rename_i w did out
    have hpay := h.pay w hw
    rw [h2] at hpay
    refine h.move hw (b := (s.workers w).1) (y := .checking did out) rfl rfl rfl rfl (h.bw w hw) hpay (by rw [h2]; rfl) (by rw [h2]; rfl)
      (by simp [crit]) ?_ (by rw [h2]; simp) (by intros; simp_all) (by simp [busyW]) (by intros; simp_all) (by intros; simp_all) (by rw [h2]; exact fun _ => rfl)
    intro w' hne
    simp only [h3, Option.some.injEq]
    exact ⟨fun e => absurd e.symm hne, fun e => by cases e⟩
  | post hw hj h3 h4 h5 =>
    rename_i w j did ss ps
    have := h.svS w hw did ss h3 j hj
    rw [h4] at this
    obtain ⟨g1, g2, g3, g4⟩ := this
    refine h.talk hw hj h3 (upd_same ..) (fun w' e => upd_ne _ _ e) rfl rfl rfl rfl (fun i e => upd_ne _ _ e) ?_
    rw [upd_same]
    exact ⟨by rw [Γ.batches_succ h.lo, ← g3, g1], .inl ⟨by rw [g1], g4⟩⟩
  | cross hw hw' hne hj h1 h2 h3 h4 =>
    exact absurd (h.crit_unique hw hw' (by rw [h1]; rfl) (by rw [h3]; rfl)) hne
  | serve hj h2 h3 =>
    rename_i j ps x
    obtain ⟨w, did, ss, hw, g1, g2, g3, g4⟩ := h.sender hj (by intro m ⟨a, _⟩; rw [h2] at a; rcases a with a | ⟨a, _⟩ <;> cases a)
    rw [h2] at g4
    rcases g4 with ⟨a, b⟩ | ⟨a, _⟩
    · injection a with a
      subst a
      refine h.talk hw hj g1 (ss' := ss) (by rw [← g1]) (fun _ _ => rfl) rfl rfl rfl rfl (fun _ _ => rfl) ?_
      rw [g2]
      refine ⟨g3, .inr ⟨rfl, ?_⟩⟩
      rw [Γ.batches_succ h.lo, List.flatten_append, serveAll_append, b]
      simpa [bind, Except.bind] using h3
    · cases a
  | ack hw hj h3 h4 h5 =>
    rename_i w j did ss
    have := h.svS w hw did ss h3 j hj
    rw [h4] at this
    obtain ⟨g1, g2⟩ := this
    rcases g2 with ⟨a, _⟩ | ⟨a, b⟩
    · rw [h5] at a; cases a
    · refine h.talk hw hj h3 (upd_same ..) (fun w' e => upd_ne _ _ e) rfl rfl rfl rfl (fun i e => upd_ne _ _ e) ?_
      rw [upd_same]
      exact ⟨.inl rfl, g1, b⟩
  | ackClosed hw hj h3 h4 h5 =>
    exact absurd h5 (h.not_closed hw (by rw [h3]; rfl) _)
  | sent hw h2 h3 =>
    rename_i w did ss
    have hhold := h.hold w hw
    rw [h2] at hhold
    have hb := h.snd w hw (by rw [h2]; rfl)
    rw [h2] at hb
    refine h.move hw (b := (s.workers w).1) (y := .publish did) rfl rfl rfl rfl (h.bw w hw) trivial (by rw [h2]; rfl) (by rw [h2]; rfl)
      hhold (fun _ _ => Iff.rfl) (by rw [h2]; simp) (by intros; simp_all) (fun _ => hb) (by intros; simp_all) ?_ (by simp [busyW])
    intro _ _ j hj
    have := h.svS w hw did ss h2 j hj
    rw [h3 j hj] at this; exact this
  | publish hw h2 =>
    rename_i w did
    have hb := h.snd w hw (by rw [h2]; rfl)
    rw [h2] at hb
    have hm : did.toNat = s.mono.toNat + 1 := by injection hb
    have hd : didOf (s.workers w).2 = some (s.mono.toNat + 1) := by rw [h2]; exact hb
    have hf := h.fl1 w hw _ hd
    have hw1 : (upd s.workers w ((s.workers w).1, .broadcasting)) w = ((s.workers w).1, .broadcasting) := upd_same ..
    have hw2 : ∀ w', w' ≠ w → (upd s.workers w ((s.workers w).1, .broadcasting)) w' = s.workers w' := fun _ e => upd_ne _ _ e
    have only : ∀ w', w' < Γ.P.nw → w' ≠ w → crit (s.workers w').2 = false := by
      intro w' hw' hne
      cases hc : crit (s.workers w').2 with
      | false => rfl
      | true => exact absurd (h.crit_unique hw' hw hc (by rw [h2]; rfl)) hne
    refine { bw := ?_, pay := ?_, cl := h.cl, ex := ?_, lo := ?_, hi := ?_, fl1 := ?_, fl2 := ?_, fl3 := ?_, hold := ?_,
             holdLt := h.holdLt, wk := ?_, snd := ?_, svS := ?_, svP := ?_, svN := ?_ }
    · intro w' hw'
      by_cases e : w' = w
      · subst e; simp only [setW_workers, hw1]; exact h.bw w' hw'
      · simp only [setW_workers, hw2 w' e]; exact h.bw w' hw'
    · intro w' hw'
      by_cases e : w' = w
      · subst e; simp only [setW_workers, hw1]; trivial
      · simp only [setW_workers, hw2 w' e]; exact h.pay w' hw'
    · refine Eq.trans (sumN_congr fun w' _ => ?_) h.ex
      by_cases e : w' = w
      · subst e; simp only [setW_workers, hw1, h2]; rfl
      · simp only [setW_workers, hw2 w' e]
    · have := h.lo; simp only [hm]; omega
    · simp only [hm]; exact hf.2
    · intro w' hw' d' hd'
      by_cases e : w' = w
      · subst e; simp only [setW_workers, hw1, didOf] at hd'; cases hd'
      · simp only [setW_workers, hw2 w' e] at hd'
        have a := h.fl1 w' hw' d' hd'
        have b : d' ≠ s.mono.toNat + 1 := by
          intro e2; subst e2; exact e (h.fl2 w' w hw' hw _ hd' hd)
        simp only [hm]
        exact ⟨by omega, a.2⟩
    · intro w1 w2 g1 g2 d k1 k2
      by_cases e1 : w1 = w
      · subst e1; simp only [setW_workers, hw1, didOf] at k1; cases k1
      · by_cases e2 : w2 = w
        · subst e2; simp only [setW_workers, hw1, didOf] at k2; cases k2
        · simp only [setW_workers, hw2 _ e1, hw2 _ e2] at k1 k2; exact h.fl2 w1 w2 g1 g2 d k1 k2
    · intro d g1 g2
      simp only [hm] at g1
      obtain ⟨w', a, b⟩ := h.fl3 d (by omega) g2
      refine ⟨w', a, ?_⟩
      rw [setW_workers, hw2 w' (by intro e; subst e; rw [hd] at b; injection b with b; omega)]; exact b
    · intro w' hw'
      by_cases e : w' = w
      · subst e
        have := h.hold w' hw'
        rw [h2] at this
        simp only [setW_workers, hw1]; exact this
      · simp only [setW_workers, hw2 w' e]; exact h.hold w' hw'
    · intro w' hw' did' out hx
      exact .inr ⟨w, hw, by rw [setW_workers, hw1]⟩
    · intro w' hw' hx
      by_cases e : w' = w
      · subst e; simp only [setW_workers, hw1] at hx; cases hx
      · simp only [setW_workers, hw2 w' e] at hx
        have := busyW_crit hx; rw [only w' hw' e] at this; cases this
    · intro w' hw' did' ss hx
      by_cases e : w' = w
      · subst e; simp only [setW_workers, hw1] at hx; cases hx
      · simp only [setW_workers, hw2 w' e] at hx
        have := only w' hw' e; rw [hx] at this; cases this
    · intro w' hw' did' hx
      by_cases e : w' = w
      · subst e; simp only [setW_workers, hw1] at hx; cases hx
      · simp only [setW_workers, hw2 w' e] at hx
        have := only w' hw' e; rw [hx] at this; cases this
    · intro _ j hj
      simp only [hm]
      exact h.svP w hw did h2 j hj
  | broadcast hw h2 =>
    rename_i w
    have hv : ∀ w', (upd (fun i => ((s.workers i).1, wake (s.workers i).2)) w ((s.workers w).1, .unlocking)) w' =
        if w' = w then ((s.workers w).1, .unlocking) else ((s.workers w').1, wake (s.workers w').2) := fun w' => rfl
    have key : ∀ {β : Type} (f : WSt D α → β), f .unlocking = f .broadcasting → (∀ x, f (wake x) = f x) →
        ∀ w', f ((upd (fun i => ((s.workers i).1, wake (s.workers i).2)) w ((s.workers w).1, .unlocking)) w').2 = f (s.workers w').2 := by
      intro β f hf hk w'
      rw [hv]
      by_cases e : w' = w
      · subst e; rw [if_pos rfl, h2]; exact hf
      · rw [if_neg e]; exact hk _
    have hwake : ∀ (x y : WSt D α), wake x = y → (∀ did out, y ≠ .woken did out) → x = y := by
      intro x y e1 e2
      cases x <;> simp only [wake] at e1 <;> first | exact e1 | exact absurd e1.symm (e2 _ _)
    refine { bw := ?_, pay := ?_, cl := h.cl, ex := ?_, lo := h.lo, hi := h.hi, fl1 := ?_, fl2 := ?_, fl3 := ?_, hold := ?_,
             holdLt := h.holdLt, wk := ?_, snd := ?_, svS := ?_, svP := ?_, svN := ?_ }
    · intro w' hw'
      simp only [hv]
      split
      · rename_i e; subst e; exact h.bw w' hw'
      · exact h.bw w' hw'
    · intro w' hw'; simp only []; rw [key Γ.payOk rfl (by intro x; cases x <;> rfl)]; exact h.pay w' hw'
    · exact Eq.trans (sumN_congr fun w' _ => key exitedW rfl (by intro x; cases x <;> rfl) w') h.ex
    · intro w' hw'; simp only []; rw [key didOf rfl (by intro x; cases x <;> rfl)]; exact h.fl1 w' hw'
    · intro w1 w2 g1 g2 d; simp only []; rw [key didOf rfl (by intro x; cases x <;> rfl), key didOf rfl (by intro x; cases x <;> rfl)]; exact h.fl2 w1 w2 g1 g2 d
    · intro d g1 g2
      obtain ⟨w', a, b⟩ := h.fl3 d g1 g2
      exact ⟨w', a, by simp only []; rw [key didOf rfl (by intro x; cases x <;> rfl)]; exact b⟩
    · intro w' hw'; simp only []; rw [key crit rfl (by intro x; cases x <;> rfl)]; exact h.hold w' hw'
    · intro w' hw' did out hx
      simp only [hv] at hx
      split at hx
      · cases hx
      · exact absurd hx (by cases (s.workers w').2 <;> simp [wake])
    · intro w' hw'; simp only []; rw [key busyW rfl (by intro x; cases x <;> rfl), key didOf rfl (by intro x; cases x <;> rfl)]; exact h.snd w' hw'
    · intro w' hw' did ss hx
      simp only [hv] at hx
      split at hx
      · cases hx
      · exact h.svS w' hw' did ss (hwake _ _ hx (by simp))
    · intro w' hw' did hx
      simp only [hv] at hx
      split at hx
      · cases hx
      · exact h.svP w' hw' did (hwake _ _ hx (by simp))
    · intro hall
      apply h.svN
      intro w' hw'
      have := hall w' hw'
      simp only [] at this
      rw [key busyW rfl (by intro x; cases x <;> rfl)] at this; exact this
  | unlock hw h2 =>
    rename_i w
    have hhold := (h.hold w hw).mp (by rw [h2]; rfl)
    refine h.move hw (b := (s.workers w).1) (y := .idle) rfl rfl rfl rfl (h.bw w hw) trivial (by rw [h2]; rfl) (by rw [h2]; rfl)
      (by simp [crit]) ?_ (by rw [h2]; simp) (by intros; simp_all) (by simp [busyW]) (by intros; simp_all) (by intros; simp_all) (by rw [h2]; exact fun _ => rfl)
    intro w' hne
    simp only [hhold, Option.some.injEq]
    exact ⟨fun e => (nomatch e), fun e => absurd e.symm hne⟩
  | exit hj h2 h3 =>
    rename_i j
    have gone : ∀ w, w < Γ.P.nw → (s.workers w).2 = .exited := by
      intro w hw
      cases hx : (s.workers w).2 <;> first | rfl | exact absurd h3 (h.not_closed hw (by rw [hx]; rfl) _)
    refine { bw := h.bw, pay := h.pay, cl := h.cl, ex := h.ex, lo := h.lo, hi := h.hi, fl1 := h.fl1, fl2 := h.fl2, fl3 := h.fl3,
             hold := h.hold, holdLt := h.holdLt, wk := h.wk, snd := h.snd, svS := ?_, svP := ?_, svN := ?_ }
    · intro w hw did ss hx
      have e : (s.workers w).2 = .sending did ss := hx
      rw [gone w hw] at e; cases e
    · intro w hw did hx
      have e : (s.workers w).2 = .publish did := hx
      rw [gone w hw] at e; cases e
    · intro hall i hi
      have := h.svN hall i hi
      by_cases e : i = j
      · subst e
        simp only [St.setS, upd_same]
        exact ⟨.inr ⟨rfl, h3⟩, this.2⟩
      · simp only [St.setS, upd_ne _ _ e]; exact this

end Dupi.Sched
