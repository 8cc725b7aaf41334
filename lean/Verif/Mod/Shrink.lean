import Verif.Mod.Malformed

/-!
# Shortening an arbitrary, possibly malformed, file again and again (C88)

The definitions in this file belong to proofs; they model no code.
-/

namespace Unixfs.Mod
open Unixfs Unixfs.Import Unixfs.Spec

variable {env : Env}

theorem bare_child {d : Bytes} {ls : List Link} {b : Builder} (h : Bare (.proto d ls b)) : ∀ l ∈ ls, Bare l.target :=
  fun _ hl d' ls' b' hr => h d' ls' b' (.step (n := .proto d ls b) hl hr)

theorem backed_leaf {d : Bytes} {b : Builder} {p : Pb.Data} (hp : Pb.Data.unmarshal d = .ok p) (h1 : p.blocksizes = []) (h2 : recorded (.proto d [] b) ≤ (p.data.getD []).length) :
    Backed (.proto d [] b) := by
  intro x hx
  cases hx with
  | refl =>
    intro q hq
    rw [hp] at hq; cases hq
    exact ⟨by simp [h1], (fun i s l hs => by rw [h1] at hs; cases hs), (fun _ => h2), (fun h => absurd rfl h), by simp [recordedSum]⟩
  | step hl _ => cases hl

theorem backed_raw {d : Bytes} {b : Builder} : Backed (.raw d b) := by
  intro x hx
  cases hx with
  | refl => trivial
  | step hl _ => cases hl

theorem bare_raw {d : Bytes} {b : Builder} : Bare (.raw d b) := by
  intro d' ls' b' hx
  cases hx with
  | step hl _ => cases hl

theorem bare_leaf {d : Bytes} {b : Builder} : Bare (.proto d [] b) := by
  intro d' ls' b' hx
  cases hx with
  | refl => intro p _ h; exact absurd rfl h
  | step hl _ => cases hl

theorem backed_node {d : Bytes} {ls : List Link} {b : Builder} (h : Keeps (.proto d ls b)) (hl : ∀ l ∈ ls, Backed l.target) : Backed (.proto d ls b) := by
  intro x hx
  cases hx with
  | refl => exact h
  | step hm hr => exact hl _ hm _ hr

theorem bare_node {d : Bytes} {ls : List Link} {b : Builder} (h : ∀ p, Pb.Data.unmarshal d = .ok p → p.data.getD [] = []) (hl : ∀ l ∈ ls, Bare l.target) : Bare (.proto d ls b) := by
  intro d' ls' b' hx
  cases hx with
  | refl => intro p hp _; exact h p hp
  | step hm hr => exact hl _ hm _ _ _ hr

/-- The payload collected while the links are passed: a size for every link. -/
structure Collected (fs : FSNode) (p0 : Pb.Data) (ls : List Link) : Prop where
  typ : fs.format.typ = p0.typ
  data : fs.format.data = p0.data
  unrec : fs.format.unrec = p0.unrec
  sizes : fs.format.blocksizes.map UInt64.toNat = ls.map (fun l => recorded l.target)
  total : fs.format.getFilesize.toNat = recordedSum ls

theorem Collected.add {fs : FSNode} {p0 : Pb.Data} {ls : List Link} (h : Collected fs p0 ls) {s : UInt64} {l : Link} (hs : s.toNat = recorded l.target)
    (hlt : recordedSum ls + s.toNat < 2 ^ 64) : Collected (fs.addBlockSize s) p0 (ls ++ [l]) := by
  refine ⟨h.typ, h.data, h.unrec, ?_, ?_⟩
  · simp only [FSNode.addBlockSize, FSNode.updateFilesize, List.map_append, List.map_cons, List.map_nil, h.sizes, hs]
  · simp only [FSNode.addBlockSize, FSNode.updateFilesize, Pb.Data.getFilesize, Option.getD_some]
    have ht := h.total
    simp only [Pb.Data.getFilesize] at ht
    rw [UInt64.toNat_add, ht, Nat.mod_eq_of_lt hlt, hs]
    simp [recordedSum]

theorem Collected.node {fs : FSNode} {p0 : Pb.Data} {ls : List Link} (h : Collected fs p0 ls) (hw : p0.WF) (ht : p0.typ = some TFile ∨ p0.typ = some TRaw) (hd : p0.data.getD [] = [])
    (hlt : recordedSum ls < 2 ^ 64) (hne : ls ≠ []) {bytes : Bytes} (hb : fs.getBytes = .ok bytes) (b : Builder) :
    Keeps (.proto bytes ls b) ∧ recorded (.proto bytes ls b) = recordedSum ls ∧ ∀ p, Pb.Data.unmarshal bytes = .ok p → p.data.getD [] = [] := by
  have hwf : fs.format.WF := ⟨by rw [h.typ]; exact hw.typ, by rw [h.data]; exact hw.data, by rw [h.unrec]; exact hw.unrec⟩
  obtain ⟨bytes', hb', hun⟩ := Pb.Data.unmarshal_marshal _ hwf
  have : bytes' = bytes := by
    have e : Except.ok bytes' = Except.ok bytes := hb'.symm.trans hb
    cases e; rfl
  subst this
  have hrec : recorded (.proto bytes' ls b) = recordedSum ls := by
    simp only [recorded, hun]
    rw [if_pos (by rw [h.typ]; exact ht)]
    exact h.total
  refine ⟨fun p hp => ?_, hrec, fun p hp => ?_⟩
  · rw [hun] at hp; cases hp
    have hlen : fs.format.blocksizes.length = ls.length := by
      have := congrArg List.length h.sizes
      simpa using this
    refine ⟨Nat.le_of_eq hlen, fun i s l hs hl => ?_, (fun e => absurd e hne), (fun _ => Nat.le_of_eq hrec), hlt⟩
    have := congrArg (fun x => x[i]?) h.sizes
    simp only [List.getElem?_map, hs, hl, Option.map_some, Option.some.injEq] at this
    exact Nat.le_of_eq this
  · rw [hun] at hp; cases hp
    rw [h.data]; exact hd

theorem recordedSum_append (xs ys : List Link) : recordedSum (xs ++ ys) = recordedSum xs + recordedSum ys := by simp [recordedSum]

mutual
theorem dagTruncate_backed : ∀ (n : Node) (size : UInt64) (svc : Svc) (k : Node), Backed n → Bare n → (n.links = [] → size.toNat ≤ recorded n) →
    (n.links ≠ [] → size.toNat < recorded n) → (dagTruncate env n size svc).1 = .ok k → Backed k ∧ Bare k ∧ recorded k = size.toNat
  | .other _, _, _, _, _, _, _, _, h => by unfold dagTruncate at h; cases h
  | .raw d b, size, svc, k, _, _, ho, _, h => by
    have ho : size.toNat ≤ d.length := ho rfl
    unfold dagTruncate at h
    rw [if_neg (by omega)] at h
    cases h
    exact ⟨backed_raw, bare_raw, by simp only [recorded, List.length_take]; omega⟩
  | .proto d [] b, size, svc, k, hb, _, ho, _, h => by
    have ho := ho rfl
    unfold dagTruncate at h
    cases e : FSNode.fromBytes d with
    | error e' => rw [e] at h; cases h
    | ok fs =>
      have hu : Pb.Data.unmarshal d = .ok fs.format := by
        unfold FSNode.fromBytes at e
        cases e2 : Pb.Data.unmarshal d with
        | error e' => rw [e2] at e; cases e
        | ok p => rw [e2] at e; cases e; rfl
      have hw := Pb.Data.unmarshal_wf hu
      have hk := (hb _ (.refl _) fs.format hu).2.2.1 rfl
      rw [e] at h
      dsimp only at h
      split at h
      · cases h
      next hl =>
        cases h
        have hdat : fs.data = fs.format.data.getD [] := rfl
        have hlen : ((fs.format.data.map (fun x => x.take size.toNat)).getD []).length = size.toNat := by
          cases ed : fs.format.data with
          | none => rw [hdat, ed] at hl; simp only [Option.getD_none, List.length_nil, Option.map_none] at hl ⊢; omega
          | some y => rw [hdat, ed] at hl; simp only [Option.getD_some, Option.map_some, List.length_take] at hl ⊢; omega
        have hun := wrapData_unmarshal (fs.format.data.map (fun x => x.take size.toNat)) (by
          intro y hy
          have := UInt64.toNat_lt size
          rw [hy] at hlen
          simp only [Option.getD_some] at hlen
          omega)
        have hrec : recorded (.proto (wrapData (fs.format.data.map (fun x => x.take size.toNat))) [] b) = size.toNat := by
          simp only [recorded, hun, or_true, if_true, Option.getD_some, hlen]
          simp
        exact ⟨backed_leaf hun rfl (by rw [hrec]; exact Nat.le_of_eq hlen.symm), bare_leaf, hrec⟩
  | .proto d (l :: ls) b, size, svc, k, hb, hbare, _, ho, h => by
    have ho := ho (by simp [Node.links])
    unfold dagTruncate at h
    cases e : FSNode.fromBytes d with
    | error e' => rw [e] at h; cases h
    | ok fs =>
      have hu : Pb.Data.unmarshal d = .ok fs.format := by
        unfold FSNode.fromBytes at e
        cases e2 : Pb.Data.unmarshal d with
        | error e' => rw [e2] at e; cases e
        | ok p => rw [e2] at e; cases e; rfl
      have hw := Pb.Data.unmarshal_wf hu
      obtain ⟨-, -, -, hk, hsum⟩ := hb _ (.refl _) fs.format hu
      have hk := hk (by simp)
      have hd : fs.format.data.getD [] = [] := hbare _ _ _ (.refl _) fs.format hu (by simp)
      have hdat : fs.data = fs.format.data.getD [] := rfl
      have htyp : fs.format.typ = some TFile ∨ fs.format.typ = some TRaw := by
        by_contra hc
        simp only [recorded, hu, if_neg hc, hd] at ho
        split at ho <;> simp at ho
      rw [e] at h
      dsimp only at h
      have := truncLinks_backed (l :: ls) 0 size fs.removeAllBlockSizes fs.format [] svc (backed_child hb) (bare_child hbare) UInt64.zero_le
        (by simp only [UInt64.toNat_zero]; omega) (by simp only [UInt64.toNat_zero]; omega)
        ⟨rfl, rfl, rfl, rfl, by simp [FSNode.removeAllBlockSizes, Pb.Data.getFilesize, hdat, hd, recordedSum]⟩ rfl (by simp)
      generalize truncLinks env (l :: ls) 0 size fs.removeAllBlockSizes [] svc = r at this h
      obtain ⟨r, svc'⟩ := r
      cases r with
      | error e => cases h
      | ok x =>
        obtain ⟨fs', kept, modified⟩ := x
        obtain ⟨h1, h2, h3, h4⟩ := this fs' kept modified rfl
        dsimp only at h
        split at h
        · cases h
        · split at h
          · cases h
          next bytes hbytes =>
            cases h
            have hs : recordedSum (kept ++ [makeLink [] modified]) = size.toNat := h2
            obtain ⟨a1, a2, a3⟩ := h1.node hw htyp hd (by rw [hs]; exact UInt64.toNat_lt _) (by simp) hbytes b
            exact ⟨backed_node a1 h3, bare_node a3 h4, a2.trans hs⟩
theorem truncLinks_backed : ∀ (ls : List Link) (cur size : UInt64) (fs : FSNode) (p0 : Pb.Data) (kept : List Link) (svc : Svc), (∀ l ∈ ls, Backed l.target) → (∀ l ∈ ls, Bare l.target) →
    cur ≤ size → size.toNat < cur.toNat + recordedSum ls → cur.toNat + recordedSum ls < 2 ^ 64 →
    Collected fs p0 kept → cur.toNat = recordedSum kept → (∀ l ∈ kept, Backed l.target ∧ Bare l.target) →
    ∀ fs' kept' m, (truncLinks env ls cur size fs kept svc).1 = .ok (fs', kept', m) →
      Collected fs' p0 (kept' ++ [makeLink [] m]) ∧ recordedSum (kept' ++ [makeLink [] m]) = size.toNat ∧
      (∀ l ∈ kept' ++ [makeLink [] m], Backed l.target) ∧ (∀ l ∈ kept' ++ [makeLink [] m], Bare l.target)
  | [], cur, size, _, _, _, _, _, _, hc, h1, _, _, _, _ => by
    simp only [UInt64.le_iff_toNat_le] at hc
    simp only [recordedSum, List.map_nil, List.sum_nil] at h1
    omega
  | .mk nm sz child :: ls, cur, size, fs, p0, kept, svc, hb, hbare, hc, h1, h2, hcol, hcur, hkept => by
    intro fs' kept' m h
    rw [recordedSum_cons] at h1 h2
    simp only [Link.target] at h1 h2
    have hchild : Backed child := hb _ (List.mem_cons_self ..)
    have hcb : Bare child := hbare _ (List.mem_cons_self ..)
    have hrest : ∀ l ∈ ls, Backed l.target := fun l hl => hb l (List.mem_cons_of_mem _ hl)
    have hrb : ∀ l ∈ ls, Bare l.target := fun l hl => hbare l (List.mem_cons_of_mem _ hl)
    unfold truncLinks at h
    generalize svc.get env child = r at h
    obtain ⟨r, svc1⟩ := r
    cases r with
    | error e => cases h
    | ok u =>
      dsimp only at h
      cases e : fileSize child with
      | error e' => rw [e] at h; cases h
      | ok cs =>
        have hcs := fileSize_recorded e
        rw [Nat.mod_eq_of_lt (by omega)] at hcs
        have hadd : (cur + cs).toNat = cur.toNat + cs.toNat := by
          rw [UInt64.toNat_add, Nat.mod_eq_of_lt (by omega)]
        rw [e] at h
        dsimp only at h
        split at h
        next hh =>
          have hlt := hit hc hh
          have := dagTruncate_backed child (size - cur) svc1
          generalize dagTruncate env child (size - cur) svc1 = r at this h
          obtain ⟨r, svc2⟩ := r
          cases r with
          | error e => cases h
          | ok k =>
            cases h
            obtain ⟨a1, a2, a3⟩ := this m hchild hcb (fun _ => by omega) (fun _ => by omega) rfl
            have hsub : (size - cur).toNat = size.toNat - cur.toNat := UInt64.toNat_sub_of_le _ _ hc
            have hle : cur.toNat ≤ size.toNat := hc
            have hlt64 := UInt64.toNat_lt size
            refine ⟨hcol.add (l := makeLink [] m) a3.symm (by omega), ?_, ?_, ?_⟩
            · have : recordedSum [makeLink [] m] = recorded m := by simp [recordedSum, makeLink, Link.target]
              rw [recordedSum_append, this, a3]; omega
            · intro l hl
              rcases List.mem_append.mp hl with hl | hl
              · exact (hkept l hl).1
              · cases List.mem_singleton.mp hl; exact a1
            · intro l hl
              rcases List.mem_append.mp hl with hl | hl
              · exact (hkept l hl).2
              · cases List.mem_singleton.mp hl; exact a2
        next hh =>
          refine truncLinks_backed ls (cur + cs) size _ p0 _ svc1 hrest hrb (UInt64.not_lt.mp hh) (by omega) (by omega)
            (hcol.add (l := .mk nm sz child) hcs (by omega)) ?_ ?_ fs' kept' m h
          · rw [recordedSum_append, hadd, hcs, hcur]
            simp [recordedSum, Link.target]
          · intro l hl
            rcases List.mem_append.mp hl with hl | hl
            · exact hkept l hl
            · cases List.mem_singleton.mp hl; exact ⟨hchild, hcb⟩
end

/-- What stays true while a modifier only shortens a file. -/
structure Shrunk (m : Nat) (dm : DM) : Prop where
  buf : dm.buf = none
  backed : Backed dm.cur
  bare : Bare dm.cur
  le : m ≤ recorded dm.cur
  lt : recorded dm.cur < 2 ^ 63

theorem Shrunk.sync {m : Nat} {dm : DM} (h : Shrunk m dm) : dm.sync env = (.ok (), dm) := by unfold DM.sync; rw [h.buf]

theorem Shrunk.size {m : Nat} {dm : DM} (h : Shrunk m dm) : dm.size = .ok (recorded dm.cur : Int) ∨ ∃ e, dm.size = .error e ∧ e ≠ .panic := by
  cases e : fileSize dm.cur with
  | error e' =>
    have hsz : dm.size = .error e' := by unfold DM.size; rw [e]
    exact .inr ⟨e', hsz, fun hp => fileSize_calm dm.cur (hp ▸ e)⟩
  | ok fs =>
    have hsz : dm.size = .ok (s64 fs) := by unfold DM.size; rw [e, h.buf]
    have hfs := fileSize_recorded e
    have := h.lt
    rw [Nat.mod_eq_of_lt (by omega)] at hfs
    refine .inl (hsz.trans ?_)
    unfold s64
    rw [Reader.i64_id (by omega) (by omega), hfs]

theorem Shrunk.mono {m m' : Nat} {dm : DM} (h : Shrunk m dm) (hle : m' ≤ m) : Shrunk m' dm :=
  ⟨h.buf, h.backed, h.bare, Nat.le_trans hle h.le, h.lt⟩

theorem Shrunk.same {m : Nat} {dm dm' : DM} (h : Shrunk m dm) (h1 : dm'.cur = dm.cur) (h2 : dm'.buf = dm.buf) : Shrunk m dm' := by
  obtain ⟨a, b, c, d, e⟩ := h
  rw [← h1] at b c d e
  rw [← h2] at a
  exact ⟨a, b, c, d, e⟩

theorem Shrunk.truncate {m : Nat} {dm : DM} (h : Shrunk m dm) {s : Int} (h0 : 0 ≤ s) (h1 : s ≤ m) :
    (dm.truncate env s).1 ≠ .error .panic ∧ Shrunk s.toNat (dm.truncate env s).2 := by
  have hm : s.toNat ≤ m := by omega
  have hrlt := h.lt
  have hmr := h.le
  unfold DM.truncate
  rw [h.sync]
  dsimp only
  rcases h.size with hsz | ⟨e, hsz, he⟩
  · rw [hsz]
    dsimp only
    split
    · exact ⟨fun h => (by cases h), h.mono hm⟩
    · rw [if_neg (by omega)]
      next hne =>
      have hu : (u64 s).toNat = s.toNat := u64_toNat h0 (by omega)
      have a := dagTruncate_calm (env := env) dm.cur (u64 s) dm.svc h.backed (fun _ => by omega) (fun _ => by omega)
      have b := dagTruncate_backed (env := env) dm.cur (u64 s) dm.svc
      generalize dagTruncate env dm.cur (u64 s) dm.svc = r at a b ⊢
      obtain ⟨r, svc⟩ := r
      cases r with
      | error e => exact ⟨fun h => a (by cases h; rfl), h.buf, h.backed, h.bare, by dsimp only; omega, h.lt⟩
      | ok n =>
        obtain ⟨b1, b2, b3⟩ := b n h.backed h.bare (fun _ => by omega) (fun _ => by omega) rfl
        dsimp only
        have c := svc_add_calm (env := env) n svc
        generalize svc.add env n = r at c ⊢
        obtain ⟨r, svc3⟩ := r
        cases r with
        | error e =>
          refine ⟨fun h => c (by cases h; rfl), ?_⟩
          dsimp only
          split
          · exact ⟨h.buf, b1, b2, by dsimp only; omega, by dsimp only; omega⟩
          · exact ⟨h.buf, h.backed, h.bare, by dsimp only; omega, h.lt⟩
        | ok u => exact ⟨fun h => (by cases h), h.buf, b1, b2, by dsimp only; omega, by dsimp only; omega⟩
  · rw [hsz]
    exact ⟨fun h => he (by cases h; rfl), h.mono hm⟩

theorem readOpen_cur (env : Env) (dm : DM) (pos : Int) : (dm.readOpen env pos).2.cur = dm.cur ∧ (dm.readOpen env pos).2.buf = dm.buf := by
  rw [DM.readOpen.eq_def]
  generalize newDagReader env.get dm.svc.tick dm.cur = o
  cases o with
  | error e => exact ⟨rfl, rfl⟩
  | ok dr =>
    dsimp only
    generalize dr.seek env.get pos 0 = q
    obtain ⟨r, dr'⟩ := q
    dsimp only
    cases r.err with
    | some e => exact ⟨rfl, rfl⟩
    | none =>
      dsimp only
      by_cases hp : r.n ≠ pos
      · rw [if_pos hp]; exact ⟨rfl, rfl⟩
      · rw [if_neg hp]; exact ⟨rfl, rfl⟩

theorem readPrep_cur (env : Env) (dm : DM) : (dm.readPrep env).2.cur = dm.cur ∧ (dm.readPrep env).2.buf = dm.buf := by
  rw [DM.readPrep.eq_def]
  generalize dm.read = o
  cases o with
  | some r => exact ⟨rfl, rfl⟩
  | none => exact readOpen_cur env dm _

theorem Shrunk.readN {m : Nat} {dm : DM} (hc : CalmEnv env) (h : Shrunk m dm) (k : Nat) :
    (dm.readN env k).1.err ≠ some .panic ∧ Shrunk m (dm.readN env k).2 := by
  unfold DM.readN
  rw [h.sync]
  dsimp only
  have a := readPrep_calm env dm
  have hcur := readPrep_cur env dm
  generalize dm.readPrep env = r at a hcur ⊢
  obtain ⟨r, dm'⟩ := r
  have hs : Shrunk m dm' := h.same hcur.1 hcur.2
  cases r with
  | error e => exact ⟨fun h => a (by cases h; rfl), hs⟩
  | ok rd =>
    dsimp only
    have hrr := readerRead_calm hc rd dm'.svc.tick k
    generalize DM.readerRead env rd dm'.svc.tick k = q at hrr ⊢
    obtain ⟨res, dr⟩ := q
    exact ⟨hrr, hs.same rfl rfl⟩

theorem Shrunk.seek {m : Nat} {dm : DM} (hc : CalmEnv env) (h : Shrunk m dm) {off : Int} (h0 : 0 ≤ off) (h1 : off ≤ m) :
    (dm.seek env off 0).1 ≠ .error .panic ∧ Shrunk m (dm.seek env off 0).2 := by
  have hrlt := h.lt
  have hmr := h.le
  unfold DM.seek
  rw [h.sync]
  dsimp only
  rcases h.size with hsz | ⟨e, hsz, he⟩
  · rw [hsz]
    simp only [DM.seekTo]
    rw [if_neg (by decide), if_pos trivial]
    dsimp only
    have hu : s64 (u64 off) = off := by
      unfold s64
      rw [u64_toNat h0 (by omega), Reader.i64_id (by omega) (by omega)]; omega
    rw [hu]
    generalize u64 off = new
    rw [DM.seekTail.eq_def]
    generalize hX : (if off > (recorded dm.cur : Int) then dm.expandSparse env (i64 (off - recorded dm.cur)) else (.ok (), dm)) = X
    rw [if_neg (by omega)] at hX
    subst hX
    dsimp only
    cases hrd : dm.read with
    | none => exact ⟨fun h => (by cases h), h.same rfl rfl⟩
    | some rd =>
      dsimp only
      have := readerSeek_calm (env := env) hc rd dm.svc.tick off 0
      generalize DM.readerSeek env rd dm.svc.tick off 0 = r at this ⊢
      obtain ⟨res, dr⟩ := r
      dsimp only at this ⊢
      refine ⟨?_, h.same rfl rfl⟩
      cases e : res.err with
      | none => exact fun h => (by cases h)
      | some e' => exact fun h => this (by rw [e]; cases h; rfl)
  · rw [hsz]
    exact ⟨fun h => he (by cases h; rfl), h⟩

theorem Shrunk.run (hc : CalmEnv env) : ∀ (ops : List MOp) {m : Nat} {dm : DM}, Shrunk m dm → Shortening m ops → ∀ r ∈ (dm.run env ops).1, r.err ≠ some .panic
  | [], _, _, _, _ => by intro r hr; cases hr
  | op :: ops, m, dm, h, hs => by
    intro r hr
    simp only [DM.run, List.mem_cons] at hr
    have key : (dm.step env op).1.err ≠ some .panic ∧ ∃ m', Shrunk m' (dm.step env op).2 ∧ Shortening m' ops := by
      cases op with
      | write b => exact hs.elim
      | writeAt b off => exact hs.elim
      | read k => exact ⟨(h.readN hc k).1, m, (h.readN hc k).2, hs⟩
      | seek off wh =>
        obtain ⟨rfl, h0, h1, hs⟩ := hs
        have := h.seek (env := env) hc h0 h1
        exact ⟨num_calm this.1, m, this.2, hs⟩
      | truncate s =>
        obtain ⟨h0, h1, hs⟩ := hs
        have := h.truncate (env := env) h0 h1
        exact ⟨unit_calm this.1, _, this.2, hs⟩
      | sync =>
        simp only [DM.step, h.sync]
        exact ⟨fun h => (by cases h), m, h, hs⟩
      | getNode =>
        simp only [DM.step, DM.getNode, h.sync]
        exact ⟨fun h => (by cases h), m, h, hs⟩
      | size =>
        refine ⟨num_calm ?_, m, h, hs⟩
        rcases h.size with hsz | ⟨e, hsz, he⟩
        · rw [hsz]; exact fun h => (by cases h)
        · rw [hsz]; exact fun h => he (by cases h; rfl)
      | hasChanges => exact ⟨fun h => (by cases h), m, h, hs⟩
    obtain ⟨k1, m', k2, k3⟩ := key
    rcases hr with rfl | hr
    · exact k1
    · exact Shrunk.run hc ops k2 k3 r hr

end Unixfs.Mod
