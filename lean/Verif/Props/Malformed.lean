import Verif.Props.Mod
import Verif.Props.Reader
import Verif.Reader.Contract
import Verif.Mod.Malformed
import Verif.Mod.Shrink
import Verif.Spec.Malformed

/-! # C87 and C88: malformed files -/

namespace Unixfs.Props
open Unixfs Unixfs.Import Unixfs.Spec Unixfs.Mod

/-! ### C87: reading -/

section
variable {net : Net} {t : Nat} {n : Node} {dr : DR}

/-- C87: opening a reader on any node returns a reader or an error. -/
theorem C87_open : newDagReader net t n ≠ .error .panic := open_calm net n t

/-- C87: whatever the nodes contain, whichever blocks can be fetched, and whatever calls were made, no
call panics, and every call ends. -/
theorem C87_no_panic (hn : newDagReader net t n = .ok dr) (ops : List ROp) :
    ∀ r ∈ (dr.run net ops).1, r.err ≠ some .panic ∧ r.err ≠ some .outOfFuel :=
  fun r hr => ⟨Reader.run_calm net ops dr r hr, C60_terminates hn ops r hr⟩

/-- C87: `Read` keeps the contract of `io.Reader` on any file: it delivers no more bytes than asked for,
counts them, and fills the buffer unless it reports an error. -/
theorem C87_read (ops : List ROp) (k : Nat) :
    ∃ r, (dr.run net (ops ++ [.read k])).1 = (dr.run net ops).1 ++ [r] ∧
      r.n = r.bytes.length ∧ r.bytes.length ≤ k ∧ (r.err = none → r.bytes.length = k) := by
  induction ops generalizing dr with
  | nil => exact ⟨_, rfl, Reader.read_contract net dr k⟩
  | cons op ops ih =>
    obtain ⟨r, h1, h2⟩ := ih (dr := (dr.step net op).2)
    exact ⟨r, by simp only [List.cons_append, DR.run, h1], h2⟩

/-- C87: `WriteTo` counts the bytes it hands over, on any file. -/
theorem C87_writeTo (ops : List ROp) (w : Writer) :
    ∃ r, (dr.run net (ops ++ [.writeTo w])).1 = (dr.run net ops).1 ++ [r] ∧ r.n = r.bytes.length := by
  induction ops generalizing dr with
  | nil => exact ⟨_, rfl, Reader.writeTo_counts net dr w⟩
  | cons op ops ih =>
    obtain ⟨r, h1, h2⟩ := ih (dr := (dr.step net op).2)
    exact ⟨r, by simp only [List.cons_append, DR.run, h1], h2⟩

end

/-- A node with these fields. -/
def bad (typ : UInt32) (filesize : UInt64) (data : Option Bytes) (sizes : List UInt64) (children : List Node) : Node :=
  .proto (mustMarshal { typ := some typ, filesize := some filesize, data := data, blocksizes := sizes }) (children.map (makeLink [])) .v0

/-- A leaf. -/
def badLeaf (filesize : UInt64) (data : Bytes) : Node := bad TFile filesize (some data) [] []

/-- A file with two links and three sizes, one with two links and one size, one whose child is a directory,
one whose child is no UnixFS node, and one that promises more than there is: all can be opened. -/
example : ∀ n ∈ [bad TFile 6 none [2, 2, 2] [badLeaf 2 [1, 2], badLeaf 2 [3, 4]], bad TFile 2 none [2] [badLeaf 2 [1, 2], badLeaf 2 [3, 4]],
      bad TFile 2 none [1, 1] [badLeaf 1 [1], bad TDirectory 0 none [] []], bad TFile 2 none [1, 1] [badLeaf 1 [1], .proto [255] [] .v0],
      bad TFile 9 none [9] [badLeaf 1 [1]]],
    (newDagReader (fun _ _ => true) 0 n).toOption.isSome := by
  decide +kernel

/-- What reading them gives: `Seek` into the first two is refused, `Read` of the third and fourth fails after
the first byte, and the last one ends early. -/
example : ([bad TFile 6 none [2, 2, 2] [badLeaf 2 [1, 2], badLeaf 2 [3, 4]], bad TFile 2 none [2] [badLeaf 2 [1, 2], badLeaf 2 [3, 4]],
      bad TFile 2 none [1, 1] [badLeaf 1 [1], bad TDirectory 0 none [] []], bad TFile 2 none [1, 1] [badLeaf 1 [1], .proto [255] [] .v0],
      bad TFile 9 none [9] [badLeaf 1 [1]]].map (fun n => match newDagReader (fun _ _ => true) 0 n with
      | .ok dr => (dr.run (fun _ _ => true) [.read 3, .seek 1 0, .seek 8 0, .read 1]).1.map (fun r : Res => (r.n, r.bytes, r.err))
      | .error _ => [])) =
    [[(3, [1, 2, 3], none), (0, [], some .seekNotSupported), (0, [], some .seekNotSupported), (1, [1], none)],
     [(3, [1, 2, 3], none), (0, [], some .seekNotSupported), (0, [], some .seekNotSupported), (1, [1], none)],
     [(1, [1], some .unexpectedPlace), (1, [], none), (8, [], none), (0, [], some .eof)],
     [(1, [1], some .incorrectlyFormatted), (1, [], none), (8, [], none), (0, [], some .eof)],
     [(1, [1], some .eof), (1, [], none), (8, [], none), (0, [], some .eof)]] := by
  decide +kernel

/-! ### C88: changing -/

section
variable {fuel h m : Nat} {db : DB} {base root : Node} {env : Mod.Env}

/-- C88 is violated by `Append`: whatever is to be appended, even nothing, it panics on a root that
records more sizes than it has links, if these are also more than the links per node. -/
theorem C88_append_violated {d : Bytes} {ls : List Link} {b : Builder} {p : Pb.Data} (hp : Pb.Data.unmarshal d = .ok p)
    (h1 : ls.length < p.blocksizes.length) (h2 : db.maxlinks < p.blocksizes.length) :
    Trickle.append fuel h (.proto d ls b) db = .error .panic := by
  have hn : ∀ x y z, (FSN.mk x y z ⟨p⟩).numChildren = p.blocksizes.length := fun _ _ _ => rfl
  simp only [Trickle.append, FSN.fromDag, FSNode.fromBytes, hp, Trickle.depthInfo, hn]
  rw [if_neg (by rw [if_neg (by omega)]; simp)]
  simp only [Trickle.appendRest, Trickle.appendFillLastChild, hn]
  rw [if_neg (by omega)]
  simp only [FSN.getChild]
  rw [List.getElem?_eq_none (by omega)]

/-- C88 (partial), `Append`: it does not panic if no node of the file records more sizes than it has links
(and the splitter does not panic). Missing: the other files, for which it is false. -/
theorem C88_append_partial {p : Params} {path : Option Bytes} {chunks : List Bytes} {fin : Option Err} {budget : Option Nat} {g : Node → Bool}
    (hf : Fresh p path chunks fin budget db) (hfin : fin ≠ some .panic) (hb : Covered base) :
    Trickle.append fuel h base { db with canGet := g } ≠ .error .panic := by
  refine Trickle.append_calm (m := db.maxlinks) fuel h ⟨rfl, ?_, ?_⟩ hb
  · obtain ⟨_, _, _, _, _, hse, _⟩ := Fresh.facts hf
    rw [show ({ db with canGet := g } : DB).srcEnd = db.srcEnd from rfl, hse]
    exact hfin
  · obtain ⟨db0, h0, rfl⟩ := hf
    simp only [Params.new] at h0
    generalize (if p.noCopy = true then path.getD [] else []) = l at h0
    split at h0
    · cases h0
    · cases h0
      simp

/-- C88, `VerifyTrickleDagStructure`: it does not panic on any node, for a `LayerRepeat` other than 0. -/
theorem C88_verify {p : Trickle.VerifyParams} (hp : p.layerRepeat ≠ 0) (n : Node) : Trickle.verify n p ≠ .error .panic :=
  Trickle.verifyRec_calm hp n (-1)

example : Trickle.verify (bad TFile 4 none [2, 2] [badLeaf 2 [1], .other [7]]) { direct := 1, layerRepeat := 4 } ≠ .error .panic := C88_verify (by decide) _

/-- C88 is violated by `VerifyTrickleDagStructure` with a `LayerRepeat` of 0. -/
theorem C88_verify_violated : Trickle.verify (bad TFile 4 none [2, 2] [bad TRaw 2 (some [1, 2]) [] [], bad TRaw 2 (some [3, 4]) [] []]) { direct := 1, layerRepeat := 0 } =
    .error .panic := by decide +kernel

/-- C88 is violated by a modifier: writing or truncating inside the recorded size of a file that has
less data, and writing where a size has no link, panics. -/
theorem C88_modifier_violated :
    (results wEnv (badLeaf 5 [1]) [.writeAt [9] 3, .sync]).map seen = [(1, [], none, none), (0, [], none, some .panic)] ∧
    (results wEnv (badLeaf 5 [1]) [.truncate 3]).map seen = [(0, [], none, some .panic)] ∧
    (results wEnv (bad TFile 9 none [2] [badLeaf 2 [1, 2]]) [.truncate 5]).map seen = [(0, [], none, some .panic)] ∧
    (results wEnv (bad TFile 4 none [2, 2] [badLeaf 2 [1, 2]]) [.writeAt [9] 3, .sync]).map seen = [(1, [], none, none), (0, [], none, some .panic)] :=
  ⟨by decide +kernel, by decide +kernel, by decide +kernel, by decide +kernel⟩

/-- C88 (partial), `Truncate` as the first call on a file that keeps what its sizes promise: no panic.
Missing: the other files, negative sizes and later calls. -/
theorem C88_truncate_partial (hb : Backed root) {size : Int64} (h0 : 0 ≤ size.toInt) :
    ∀ r ∈ results env root [.truncate size], r.err ≠ some .panic := by
  intro r hr
  unfold results at hr
  cases e : newDagModifier root with
  | error e' => rw [e] at hr; cases hr
  | ok dm =>
    rw [e] at hr
    obtain ⟨hc, hbuf, -, -⟩ := new_fields e
    rw [← hc] at hb
    simp only [DM.run, DM.step, List.mem_singleton] at hr
    rw [hr]
    exact unit_calm (truncate_calm hbuf hb h0 (by have := Int64.toInt_lt size; omega))

/-- C88 (partial), `WriteAt` inside the recorded size as the first call, and `Sync` after it: no panic.
Missing: the other files and offsets, and later calls. -/
theorem C88_writeAt_partial (hsplit : ∀ b, (env.split b).2 ≠ some .panic) (hb : Backed root) (h2 : recorded root < 2 ^ 63)
    (b : Bytes) {off : Int64} (h0 : 0 ≤ off.toInt) (h1 : off.toInt ≤ recorded root) (hn : (newDagModifier root).toOption.isSome) :
    ∃ r1 r2, results env root [.writeAt b off, .sync] = [r1, r2] ∧ r1.err ≠ some .panic ∧ (r1.err = none → r2.err ≠ some .panic) := by
  unfold results
  cases e : newDagModifier root with
  | error e' => rw [e] at hn; cases hn
  | ok dm =>
    obtain ⟨hc, hbuf, hws, hcw⟩ := new_fields e
    rw [← hc] at hb h1 h2
    obtain ⟨a1, a2⟩ := writeAt_calm (env := env) hsplit hbuf hws hcw hb h0 h1 h2 b
    refine ⟨_, _, rfl, num_calm a1, fun h => unit_calm (a2 ?_)⟩
    change (MRes.num (dm.writeAt env b off.toInt).1).err = none at h
    cases e : (dm.writeAt env b off.toInt).1 with
    | ok n => exact ⟨n, rfl⟩
    | error e => rw [e] at h; cases h

/-- C88 (partial), any number of calls that only shorten and read a file that keeps what its sizes promise and in
which no node with links has data of its own: no panic, whatever fails. Missing: other files, for which it is false
(`C88_later_violated`), and writing. -/
theorem C88_shorten_partial (hc : CalmEnv env) (hb : Backed root) (hbare : Bare root) (h2 : recorded root < 2 ^ 63) {ops : List MOp} (ho : Shortening (recorded root) ops) :
    ∀ r ∈ results env root ops, r.err ≠ some .panic := by
  intro r hr
  unfold results at hr
  cases e : newDagModifier root with
  | error e' => rw [e] at hr; cases hr
  | ok dm =>
    rw [e] at hr
    obtain ⟨hcur, hbuf, -, -⟩ := new_fields e
    subst hcur
    exact Shrunk.run hc ops ⟨hbuf, hb, hbare, Nat.le_refl _, h2⟩ ho r hr

end

/-- A file that promises too little: it records 3 bytes and one size of 1, and has two leaves of 2 bytes. -/
def short : Node := bad TFile 3 none [1] [badLeaf 2 [1, 2], badLeaf 2 [3, 4]]

theorem short_backed : Backed short := by
  have leaf : ∀ d : Bytes, d ∈ [[1, 2], [3, 4]] → Backed (badLeaf 2 d) := by
    intro d hd x hx
    cases hx with
    | refl =>
      intro p hp
      have : Pb.Data.unmarshal (mustMarshal { typ := some TFile, filesize := some 2, data := some d, blocksizes := [] }) =
          .ok { typ := some TFile, filesize := some 2, data := some d, blocksizes := [] } := by
        simp only [List.mem_cons, List.not_mem_nil, or_false] at hd
        rcases hd with rfl | rfl <;> decide +kernel
      rw [this] at hp
      cases hp
      refine ⟨Nat.le_refl _, (fun i s l hs => by cases hs), (fun _ => ?_), (fun h => absurd rfl h), by decide +kernel⟩
      simp only [List.mem_cons, List.not_mem_nil, or_false] at hd
      rcases hd with rfl | rfl <;> decide +kernel
    | step hm _ => cases hm
  intro x hx
  cases hx with
  | refl =>
    intro p hp
    have : Pb.Data.unmarshal (mustMarshal { typ := some TFile, filesize := some 3, data := none, blocksizes := [1] }) =
        .ok { typ := some TFile, filesize := some 3, data := none, blocksizes := [1] } := by decide +kernel
    rw [this] at hp
    cases hp
    refine ⟨by decide +kernel, ?_, (fun h => by cases h), (fun _ => by decide +kernel), by decide +kernel⟩
    intro i s l hs hl
    match i with
    | 0 =>
      cases hs
      cases hl
      decide +kernel
    | i + 1 => cases hs
  | step hm h =>
    simp only [short, bad, Node.links, List.map_cons, List.map_nil, List.mem_cons, List.not_mem_nil, or_false] at hm
    rcases hm with rfl | rfl
    · exact leaf [1, 2] (by simp) x h
    · exact leaf [3, 4] (by simp) x h

/-- The hypotheses of the partial theorems are met by it, and what the calls return. -/
example : Backed short ∧ Covered short ∧ recorded short = 3 ∧ (newDagModifier short).toOption.isSome ∧
    (results wEnv short [.truncate 2, .sync]).map seen = [(0, [], none, none), (0, [], none, none)] ∧
    (results wEnv short [.writeAt [9] 2, .sync]).map seen = [(1, [], none, none), (0, [], none, none)] :=
  ⟨short_backed, backed_covered short_backed, by decide +kernel, by decide +kernel, by decide +kernel, by decide +kernel⟩

theorem short_bare : Bare short := by
  intro d ls b hx
  cases hx with
  | refl =>
    intro p hp _
    have : Pb.Data.unmarshal (mustMarshal { typ := some TFile, filesize := some 3, data := none, blocksizes := [1] }) =
        .ok { typ := some TFile, filesize := some 3, data := none, blocksizes := [1] } := by decide +kernel
    rw [this] at hp
    cases hp; rfl
  | step hm h =>
    simp only [short, bad, Node.links, List.map_cons, List.map_nil, List.mem_cons, List.not_mem_nil, or_false] at hm
    rcases hm with rfl | rfl
    · exact bare_leaf d ls b h
    · exact bare_leaf d ls b h

/-- The hypotheses of `C88_shorten_partial` are met. -/
example : Backed short ∧ Bare short ∧ recorded short = 3 ∧ Shortening 3 [.truncate 2, .seek 1 0, .read 4, .truncate 2, .truncate 0] ∧
    (results wEnv short [.truncate 2, .seek 1 0, .read 4, .truncate 2, .truncate 0, .size]).map seen =
      [(0, [], none, none), (1, [], none, none), (1, [2], none, some .eof), (0, [], none, none), (0, [], none, none), (0, [], none, none)] :=
  ⟨short_backed, short_bare, by decide +kernel, by simp only [Shortening]; decide, by decide +kernel⟩

/-- A file of 3 bytes whose root also has data of its own. -/
def laden : Node := bad TFile 3 (some [9, 9]) [3] [badLeaf 3 [1, 2, 3]]

theorem laden_backed : Backed laden := by
  intro x hx
  cases hx with
  | refl =>
    intro p hp
    have : Pb.Data.unmarshal (mustMarshal { typ := some TFile, filesize := some 3, data := some [9, 9], blocksizes := [3] }) =
        .ok { typ := some TFile, filesize := some 3, data := some [9, 9], blocksizes := [3] } := by decide +kernel
    rw [this] at hp
    cases hp
    refine ⟨by decide +kernel, ?_, (fun h => by cases h), (fun _ => by decide +kernel), by decide +kernel⟩
    intro i s l hs hl
    match i with
    | 0 =>
      cases hs
      cases hl
      decide +kernel
    | i + 1 => cases hs
  | step hm h =>
    simp only [laden, bad, Node.links, List.map_cons, List.map_nil, List.mem_cons, List.not_mem_nil, or_false] at hm
    subst hm
    have hun : Pb.Data.unmarshal (mustMarshal { typ := some TFile, filesize := some 3, data := some [1, 2, 3], blocksizes := [] }) =
        .ok { typ := some TFile, filesize := some 3, data := some [1, 2, 3], blocksizes := [] } := by decide +kernel
    exact backed_leaf hun rfl (by decide +kernel) x h

/-- C88 is violated by a second call on a file that keeps what its sizes promise: after `Truncate` the recorded size
counts the data of the root too, and `Truncate` to a size in between panics, although each of them alone does not
(`C88_truncate_partial`). -/
theorem C88_later_violated : Backed laden ∧ recorded laden = 3 ∧
    (results wEnv laden [.truncate 2, .truncate 3]).map seen = [(0, [], none, none), (0, [], none, some .panic)] :=
  ⟨laden_backed, by decide +kernel, by decide +kernel⟩

end Unixfs.Props
