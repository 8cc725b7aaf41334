import Verif.Import.VerifyLemmas
import Verif.Spec.Append

/-! # Correctness of `trickle.Append`

The definitions in this file belong to proofs; they model no code.
-/

namespace Unixfs.Import
open Unixfs.Spec

theorem appendableLast_snoc (m : Nat) (pre : List Link) (l : Link) :
    AppendableLast m (pre ++ [l]) ↔ Appendable m l.target := by
  induction pre with
  | nil => obtain ⟨a, b, n⟩ := l; simp [AppendableLast, Link.target]
  | cons x pre ih => obtain ⟨a, b, n⟩ := x; simp [AppendableLast, ih]

theorem growableFrom_append (m : Nat) (a b : List Link) (i : Nat) :
    GrowableFrom m i (a ++ b) ↔ GrowableFrom m i a ∧ GrowableFrom m (i + a.length) b := by
  induction a generalizing i with
  | nil => simp [GrowableFrom]
  | cons x a ih =>
    obtain ⟨p, q, n⟩ := x
    simp only [List.cons_append, GrowableFrom, ih, List.length_cons, and_assoc]
    rw [show i + 1 + a.length = i + (a.length + 1) by omega]

theorem growableFrom_small (m : Nat) (a : List Link) (i : Nat) (h : i + a.length ≤ m) : GrowableFrom m i a := by
  induction a generalizing i with
  | nil => trivial
  | cons x a ih =>
    obtain ⟨p, q, n⟩ := x
    simp only [List.length_cons] at h
    exact ⟨fun _ => by omega, ih _ (by omega)⟩

theorem growableFrom_all (m : Nat) (a : List Link) (i : Nat) (h : ∀ l ∈ a, Growable m l.target) : GrowableFrom m i a := by
  induction a generalizing i with
  | nil => trivial
  | cons x a ih =>
    obtain ⟨p, q, n⟩ := x
    exact ⟨fun _ => h (.mk p q n) (by simp), ih _ (fun l hl => h l (by simp [hl]))⟩

mutual
theorem growable_appendable {m : Nat} : ∀ {n : Node}, Growable m n → Appendable m n
  | .raw .., h => h.elim
  | .other .., h => h.elim
  | .proto d ls b, h => ⟨h.1, fun hl => growableFrom_last (i := 0) (by omega) h.2⟩
theorem growableFrom_last {m : Nat} : ∀ {ls : List Link} {i : Nat}, m < i + ls.length → GrowableFrom m i ls → AppendableLast m ls
  | [], _, _, _ => trivial
  | .mk x y n :: ls, i, hl, h => by
    refine ⟨fun hn => ?_, ?_⟩
    · subst hn
      simp only [List.length_cons, List.length_nil] at hl
      exact growable_appendable (h.1 (by omega))
    · exact growableFrom_last (i := i + 1) (by simp only [List.length_cons] at hl; omega) h.2
end

theorem heightL_mem {ls : List Link} {l : Link} (h : l ∈ ls) : height l.target + 1 ≤ heightL ls := by
  induction ls with
  | nil => simp at h
  | cons x ls ih =>
    obtain ⟨a, b, n⟩ := x
    rcases List.mem_cons.mp h with rfl | h
    · simp [heightL, Link.target]
    · have := ih h; simp only [heightL]; omega

theorem contentL_append (a b : List Link) : contentL (a ++ b) =
    match contentL a, contentL b with
    | some x, some y => some (x ++ y)
    | _, _ => none := by
  induction a with
  | nil => simp only [List.nil_append, contentL]; cases contentL b <;> simp
  | cons l a ih =>
    obtain ⟨p, q, n⟩ := l
    simp only [List.cons_append, contentL, ih]
    cases content n <;> cases contentL a <;> cases contentL b <;> simp

theorem sizesTrueL_append (a b : List Link) : SizesTrueL (a ++ b) ↔ SizesTrueL a ∧ SizesTrueL b := by
  induction a with
  | nil => simp [SizesTrueL]
  | cons l a ih => obtain ⟨p, q, n⟩ := l; simp [SizesTrueL, ih, and_assoc]

mutual
theorem sizesTrue_content : ∀ {n : Node}, SizesTrue n → ∃ c, content n = some c
  | .raw d _, _ => ⟨d, rfl⟩
  | .other _, h => h.elim
  | .proto d [] b, ⟨m, hm, hf, _⟩ => ⟨m.data.getD [], by simp [content, hm, hf]⟩
  | .proto d (l :: ls) b, h => by
    simp only [SizesTrue] at h
    obtain ⟨m, hm, hf, hd, hb, hfs, hs⟩ := h
    simp only [content]
    exact sizesTrueL_content (ls := l :: ls) hs
theorem sizesTrueL_content : ∀ {ls : List Link}, SizesTrueL ls → ∃ c, contentL ls = some c
  | [], _ => ⟨[], rfl⟩
  | .mk _ _ n :: ls, h => by
    obtain ⟨a, ha⟩ := sizesTrue_content h.1
    obtain ⟨b, hb⟩ := sizesTrueL_content h.2
    exact ⟨a ++ b, by simp [contentL, ha, hb]⟩
end

/-- The node under construction represents content `c` truthfully. -/
structure FSN.OK (fsn : FSN) (c : Bytes) : Prop where
  typ : IsFileMsg fsn.file.format
  data : fsn.file.format.data.getD [] = []
  wf : fsn.file.format.WF
  blocks : fsn.file.format.blocksizes = fsn.links.map (fun l => UInt64.ofNat (contentLen l.target))
  fsize : fsn.file.format.filesize.getD 0 = UInt64.ofNat c.length
  cont : contentL fsn.links = some c
  sizes : SizesTrueL fsn.links

theorem IsFileMsg.isSome {m : Pb.Data} (h : IsFileMsg m) : m.typ.isSome := by
  rcases h with h | h <;> simp [h]

theorem FSN.OK.unmarshal {fsn : FSN} {c : Bytes} (h : fsn.OK c) : Pb.Data.unmarshal fsn.file.bytes = .ok fsn.file.format := by
  obtain ⟨b, hb, hu⟩ := Pb.Data.unmarshal_marshal _ h.wf
  have : fsn.file.bytes = b := by unfold FSNode.bytes FSNode.getBytes; rw [hb]
  rw [this, hu]

theorem FSN.OK.node {fsn : FSN} {c : Bytes} (h : fsn.OK c) (b : Builder) :
    content (.proto fsn.file.bytes fsn.links b) = some c ∧ SizesTrue (.proto fsn.file.bytes fsn.links b) := by
  have hc : content (.proto fsn.file.bytes fsn.links b) = some c := by
    have := h.cont
    cases hl : fsn.links with
    | nil =>
      rw [hl] at this
      simp only [content, h.unmarshal, h.typ, if_true, h.data]
      simpa [contentL] using this
    | cons l ls => rw [hl] at this; simpa [content] using this
  refine ⟨hc, ?_⟩
  refine ⟨_, h.unmarshal, h.typ, fun _ => h.data, h.blocks, ?_, h.sizes⟩
  unfold contentLen; rw [hc]; exact h.fsize

theorem FSN.OK.fileSize {fsn : FSN} {c : Bytes} (h : fsn.OK c) : fsn.fileSize = UInt64.ofNat c.length := by
  unfold FSN.fileSize FSNode.fileSize pbSize
  have : fsn.file.format.getType = TFile ∨ fsn.file.format.getType = TRaw := by
    rcases h.typ with h | h <;> simp [Pb.Data.getType, h]
  rw [if_neg (by rcases this with h | h <;> rw [h] <;> decide), if_pos this]
  exact h.fsize

theorem FSN.OK.num {fsn : FSN} {c : Bytes} (h : fsn.OK c) : fsn.numChildren = fsn.links.length := by
  unfold FSN.numChildren FSNode.numChildren; rw [h.blocks]; simp

theorem FSN.OK.withData {fsn : FSN} {c : Bytes} (h : fsn.OK c) (d : Bytes) : FSN.OK { fsn with dagData := d } c :=
  ⟨h.typ, h.data, h.wf, h.blocks, h.fsize, h.cont, h.sizes⟩

/-- Adding one child. -/
theorem FSN.OK.add {fsn : FSN} {c : Bytes} (h : fsn.OK c) {n : Node} {cn : Bytes} (hn : content n = some cn) (hs : SizesTrue n)
    (l : Link) (hl : l.target = n) :
    FSN.OK { fsn with links := fsn.links ++ [l], file := fsn.file.addBlockSize (UInt64.ofNat cn.length) } (c ++ cn) := by
  obtain ⟨p, q, n'⟩ := l
  simp only [Link.target] at hl; subst hl
  refine ⟨h.typ, h.data, ⟨h.wf.typ, h.wf.data, h.wf.unrec⟩, ?_, ?_, ?_, ?_⟩
  · simp [FSNode.addBlockSize, FSNode.updateFilesize, h.blocks, Link.target, contentLen, hn]
  · have := h.fsize
    simp only [FSNode.addBlockSize, FSNode.updateFilesize, Pb.Data.getFilesize, Option.getD_some, List.length_append]
    rw [this, UInt64.ofNat_add]
  · rw [contentL_append, h.cont]; simp [contentL, hn]
  · rw [sizesTrueL_append]; exact ⟨h.sizes, hs, trivial⟩

theorem FSN.addTrees_cons (cfg : Cfg) (fsn : FSN) (t : T) (ts : List T) :
    fsn.addTrees cfg (t :: ts) = FSN.addTrees cfg { fsn with links := fsn.links ++ [makeLink [] (t.toNode cfg)], file := fsn.file.addBlockSize t.size } ts := by
  have : t :: ts = [t] ++ ts := rfl
  rw [this, FSN.addTrees_append]
  simp [FSN.addTrees, T.toLinks, addSizes]

theorem FSN.OK.addTrees (cfg : Cfg) (hc : cfg.OK) : ∀ (ts : List T) {fsn : FSN} {c : Bytes}, fsn.OK c → T.LimL ts →
    (fsn.addTrees cfg ts).OK (c ++ (T.chunksL ts).flatten)
  | [], fsn, c, h, _ => by rw [FSN.addTrees_nil]; simpa [T.chunksL] using h
  | t :: ts, fsn, c, h, hl => by
    rw [FSN.addTrees_cons]
    have h1 := h.add (content_toNode cfg hc t hl.1) (sizesTrue_toNode cfg hc t hl.1) (makeLink [] (t.toNode cfg)) rfl
    have := FSN.OK.addTrees cfg hc ts h1 hl.2
    simpa [T.chunksL, T.size] using this

/-- Removing the last child. -/
theorem FSN.OK.removeLast {fsn : FSN} {c : Bytes} (h : fsn.OK c) {pre : List Link} {l : Link} (hl : fsn.links = pre ++ [l]) :
    ∃ fsn' cp cl, fsn.removeChild (fsn.numChildren - 1) = .ok fsn' ∧ fsn'.OK cp ∧ content l.target = some cl ∧ c = cp ++ cl ∧
      fsn'.links = pre ∧ fsn'.builder = fsn.builder ∧ fsn'.file.format.typ = fsn.file.format.typ := by
  have hnum : fsn.numChildren - 1 = pre.length := by rw [h.num, hl]; simp
  have hcont := h.cont
  rw [hl, contentL_append] at hcont
  obtain ⟨nm, tsz, n⟩ := l
  have hsz := h.sizes
  rw [hl, sizesTrueL_append] at hsz
  obtain ⟨cp, hcp⟩ := sizesTrueL_content hsz.1
  obtain ⟨cl, hcl⟩ := sizesTrue_content hsz.2.1
  simp only [hcp, contentL, hcl, List.append_nil, Option.some.injEq] at hcont
  have hblk : fsn.file.format.blocksizes = pre.map (fun l => UInt64.ofNat (contentLen l.target)) ++ [UInt64.ofNat cl.length] := by
    rw [h.blocks, hl]; simp [Link.target, contentLen, hcl]
  have hget : fsn.file.format.blocksizes[pre.length]? = some (UInt64.ofNat cl.length) := by
    rw [hblk, List.getElem?_append_right (by simp)]; simp
  have hrem : fsn.removeChild (fsn.numChildren - 1) = .ok
      { fsn with
        links := fsn.links.take pre.length ++ fsn.links.drop (pre.length + 1)
        file := { format := { (fsn.file.updateFilesize (0 - UInt64.ofNat cl.length)).format with
          blocksizes := fsn.file.format.blocksizes.take pre.length ++ fsn.file.format.blocksizes.drop (pre.length + 1) } } } := by
    unfold FSN.removeChild FSNode.removeBlockSize
    rw [hnum, hget]
    simp only
    rw [if_pos (by rw [hl]; simp)]
    rfl
  refine ⟨_, cp, cl, hrem, ?_, hcl, hcont.symm, ?_, rfl, rfl⟩
  · refine ⟨h.typ, h.data, ⟨h.wf.typ, h.wf.data, h.wf.unrec⟩, ?_, ?_, ?_, ?_⟩
    · simp only [hblk, hl]
      simp
    · simp only [FSNode.updateFilesize, Pb.Data.getFilesize, Option.getD_some]
      rw [h.fsize, ← hcont, List.length_append, UInt64.ofNat_add]
      have : ∀ a b : UInt64, a + b + (0 - b) = a := by intro a b; rw [UInt64.zero_sub, ← UInt64.sub_eq_add_neg]; exact UInt64.add_sub_cancel a b
      rw [this]
    · simp [hl, hcp]
    · simp [hl, hsz.1]
  · simp [hl]

/-- `NewFSNFromDag` on a truthful node without own data. -/
theorem fromDag_ok {d : Bytes} {ls : List Link} {b : Builder} {c : Bytes} (hs : SizesTrue (.proto d ls b))
    (hd : ∃ msg, Pb.Data.unmarshal d = .ok msg ∧ msg.data.getD [] = []) (hc : content (.proto d ls b) = some c) :
    ∃ fsn, FSN.fromDag d ls b = .ok fsn ∧ fsn.OK c ∧ fsn.links = ls ∧ fsn.builder = b ∧ Pb.Data.unmarshal d = .ok fsn.file.format := by
  simp only [SizesTrue] at hs
  obtain ⟨m, hm, hf, hdata, hb, hfs, hsl⟩ := hs
  obtain ⟨msg, hm', hd'⟩ := hd
  rw [hm] at hm'; cases hm'
  refine ⟨⟨ls, d, b, ⟨m⟩⟩, by simp [FSN.fromDag, FSNode.fromBytes, hm], ?_, rfl, rfl, hm⟩
  refine ⟨hf, hd', Pb.Data.unmarshal_wf hm, hb, ?_, ?_, hsl⟩
  · rw [hfs]; simp [contentLen, hc]
  · cases ls with
    | nil =>
      simp only [content, hm, hf, if_true, hd'] at hc
      simpa [contentL] using hc
    | cons l ls => simpa [content] using hc

namespace Trickle

/-- What can go wrong in an append, besides the failures of an import: a block on the right spine
cannot be fetched, or the recursion bound `h` of the model is below the height. -/
def AFail (db : DB) (links : List Link) (h : Nat) (e : Err) : Prop :=
  Fail db e ∨ (e = .notFound ∧ db.maxlinks < links.length ∧ ∃ pre l, links = pre ++ [l] ∧ ∃ x, (x = l.target ∨ OnSpine db.maxlinks l.target x) ∧ db.canGet x = false) ∨ (e = .outOfFuel ∧ h ≤ heightL links)

/-- The data blocks under a list of links. -/
def blocksL (ls : List Link) : List Node := (leavesL ls).filter (fun x => contentLen x ≠ 0)

theorem leavesL_append (a b : List Link) : leavesL (a ++ b) = leavesL a ++ leavesL b := by
  induction a with
  | nil => rfl
  | cons l a ih => obtain ⟨p, q, n⟩ := l; simp [leavesL, ih]

theorem blocksL_append (a b : List Link) : blocksL (a ++ b) = blocksL a ++ blocksL b := by
  simp [blocksL, leavesL_append]

theorem blocksL_one (l : Link) : blocksL [l] = blocks l.target := by
  obtain ⟨p, q, n⟩ := l; simp [blocksL, blocks, leavesL, Link.target]

theorem blocks_proto {d : Bytes} {ls : List Link} {b : Builder} (h : ls = [] → content (.proto d ls b) = some []) :
    blocks (.proto d ls b) = blocksL ls := by
  cases ls with
  | nil => simp [blocks, blocksL, leaves, leavesL, contentLen, h rfl]
  | cons l ls => simp [blocks, blocksL, leaves]

/-- The leaves for the chunks that hold bytes. -/
def chunkBlocks (c : Cfg) (cs : List Bytes) : List Node := (cs.filter (fun d => d ≠ [])).map c.leafNode

theorem chunkBlocks_append (c : Cfg) (a b : List Bytes) : chunkBlocks c (a ++ b) = chunkBlocks c a ++ chunkBlocks c b := by
  simp [chunkBlocks]

mutual
theorem blocks_toNode (c : Cfg) (hc : c.OK) : ∀ (t : T), t.Lim → blocks (t.toNode c) = chunkBlocks c t.chunks
  | .leaf d, hl => by
    have := content_toNode c hc (.leaf d) hl
    simp only [T.toNode, T.chunks] at this ⊢
    simp only [blocks, leaves_leafNode, chunkBlocks, List.filter_cons, List.filter_nil, contentLen, this]
    cases d <;> simp
  | .node ts, hl => by
    have := content_toNode c hc (.node ts) hl
    simp only [T.toNode, T.chunks] at this ⊢
    rw [blocks_proto]
    · exact blocksL_toLinks c hc ts hl
    · intro h
      cases ts with
      | nil => exact this
      | cons t ts => simp [T.toLinks] at h
theorem blocksL_toLinks (c : Cfg) (hc : c.OK) : ∀ (ts : List T), T.LimL ts → blocksL (T.toLinks c ts) = chunkBlocks c (T.chunksL ts)
  | [], _ => rfl
  | t :: ts, hl => by
    have : T.toLinks c (t :: ts) = [makeLink [] (t.toNode c)] ++ T.toLinks c ts := rfl
    rw [this, blocksL_append, blocksL_one, blocksL_toLinks c hc ts hl.2]
    simp only [T.chunksL, chunkBlocks_append, makeLink, Link.target]
    rw [blocks_toNode c hc t hl.1]
end

/-- The data blocks are kept, and the consumed chunks added behind them, one block each. -/
def Kept (fsn : FSN) (db : DB) (fsn' : FSN) (db' : DB) : Prop :=
  db'.cfg TRaw = db.cfg TRaw ∧ ∃ cs, db.pend = cs ++ db'.pend ∧ blocksL fsn'.links = blocksL fsn.links ++ chunkBlocks (db.cfg TRaw) cs

theorem Kept.trans {f1 f2 f3 : FSN} {d1 d2 d3 : DB} (h1 : Kept f1 d1 f2 d2) (h2 : Kept f2 d2 f3 d3) : Kept f1 d1 f3 d3 := by
  obtain ⟨hc1, cs1, hp1, hb1⟩ := h1
  obtain ⟨hc2, cs2, hp2, hb2⟩ := h2
  refine ⟨hc2.trans hc1, cs1 ++ cs2, by rw [hp1, hp2, List.append_assoc], ?_⟩
  rw [hb2, hb1, hc1, chunkBlocks_append, List.append_assoc]

theorem Kept.of_adv {fsn : FSN} {db db' : DB} {new} (ha : Adv db [] new db') : Kept fsn db fsn db' :=
  ⟨ha.cfg _, [], by rw [ha.pend], by simp [chunkBlocks]⟩

/-- Appending to the node `fsn` of content `c`. -/
structure AOK (m : Nat) (fsn : FSN) (c : Bytes) (db : DB) (fsn' : FSN) (db' : DB) (Q : List Bytes → List Built → Prop) : Prop where
  ex : ∃ cs new, Adv db cs new db' ∧ fsn'.OK (c ++ cs.flatten) ∧ (m < fsn'.links.length → AppendableLast m fsn'.links) ∧
    (∀ l' ∈ fsn'.links, ∀ x, Reach l'.target x → (∃ l ∈ fsn.links, Reach l.target x) ∨ ∃ b ∈ new, b.node = x) ∧
    fsn'.builder = fsn.builder ∧ fsn'.file.format.typ = fsn.file.format.typ ∧ Q cs new
  grow : GrowableFrom m 0 fsn.links → GrowableFrom m 0 fsn'.links
  kept : Kept fsn db fsn' db'

def AResult (m : Nat) (fsn : FSN) (c : Bytes) (db : DB) (h : Nat) (Q : DB → Prop) : Except Err (FSN × DB) → Prop
  | .ok (fsn', db') => AOK m fsn c db fsn' db' (fun _ _ => True) ∧ Q db'
  | .error e => AFail db fsn.links h e

theorem AOK.trans {m : Nat} {fsn fsn1 fsn2 : FSN} {c : Bytes} {db db1 db2 : DB}
    (h1 : AOK m fsn c db fsn1 db1 (fun _ _ => True))
    (h2 : ∀ c1, fsn1.OK c1 → (m < fsn1.links.length → AppendableLast m fsn1.links) → AOK m fsn1 c1 db1 fsn2 db2 (fun _ _ => True)) :
    AOK m fsn c db fsn2 db2 (fun _ _ => True) := by
  obtain ⟨cs, new, ha, ho, hs, hr, hb, ht, -⟩ := h1.ex
  obtain ⟨cs2, new2, ha2, ho2, hs2, hr2, hb2, ht2, -⟩ := (h2 _ ho hs).ex
  refine ⟨⟨cs ++ cs2, new ++ new2, ha.trans ha2, by simpa using ho2, hs2, ?_, by rw [hb2, hb], by rw [ht2, ht], trivial⟩,
    fun hg => (h2 _ ho hs).grow (h1.grow hg), h1.kept.trans (h2 _ ho hs).kept⟩
  intro l' hl' x hx
  rcases hr2 l' hl' x hx with ⟨l, hl, hx⟩ | ⟨b, hb, he⟩
  · rcases hr l hl x hx with h | ⟨b, hb, he⟩
    · exact .inl h
    · exact .inr ⟨b, by simp [hb], he⟩
  · exact .inr ⟨b, by simp [hb], he⟩

theorem cfgOK (db : DB) : (db.cfg TRaw).OK := .inr rfl

theorem appendable_node (m : Nat) (c : Cfg) {D : Nat} {t : T} (h : Trk m D t) : Appendable m (t.toNode c) := by
  induction h with
  | mk D ts hne hleaf hlt hsub ih =>
    simp only [T.toNode, Appendable]
    refine ⟨⟨_, bytes_addSizes _, rfl⟩, ?_⟩
    intro hl
    rw [T.toLinks_length] at hl
    obtain ⟨pre, last, rfl⟩ : ∃ pre last, ts = pre ++ [last] := ⟨ts.dropLast, ts.getLast hne, (List.dropLast_concat_getLast hne).symm⟩
    rw [T.toLinks_append]
    simp only [T.toLinks]
    rw [appendableLast_snoc]
    simp only [List.length_append, List.length_cons, List.length_nil] at hl
    exact ih pre.length last (by simp) (by omega)

theorem growable_node (m : Nat) (c : Cfg) {D : Nat} {t : T} (h : Trk m D t) : Growable m (t.toNode c) := by
  induction h with
  | mk D ts hne hleaf hlt hsub ih =>
    simp only [T.toNode, Growable]
    refine ⟨⟨_, bytes_addSizes _, rfl⟩, ?_⟩
    have : ∀ (pre suf : List T), ts = pre ++ suf → GrowableFrom m pre.length (T.toLinks c suf) := by
      intro pre suf
      induction suf generalizing pre with
      | nil => intro _; trivial
      | cons x suf ih2 =>
        intro he
        refine ⟨fun hm => ih pre.length x (by simp [he]) hm, ?_⟩
        have := ih2 (pre ++ [x]) (by simp [he])
        simpa using this
    exact this [] ts rfl

/-- A step that adds sub-trees. -/
theorem AOK.of_grow {m : Nat} {Q : List T → Prop → Prop} {fsn : FSN} {c : Bytes} {db : DB} {fsn' : FSN} {db' : DB} {r}
    (hr : r = .ok (fsn', db')) (h : GrowOK Q fsn db r) (ho : fsn.OK c) (hs : m < fsn.links.length → AppendableLast m fsn.links)
    (hQ : ∀ ts mo, Q ts mo → ts ≠ [] → m < fsn.links.length + ts.length → ∀ t ∈ ts, ∃ D, Trk m D t) : AOK m fsn c db fsn' db' (fun _ _ => True) := by
  subst hr
  obtain ⟨ts, cs, new, d, ha, hf, hc, -, hq, hn, -⟩ := h
  have hlim : T.LimL ts := T.limL_of_chunks ts (by rw [hc]; exact ha.lim)
  have ho' := FSN.OK.addTrees (db.cfg TRaw) (cfgOK db) ts ho hlim
  rw [hc] at ho'
  refine ⟨⟨cs, new, ha, by rw [hf]; exact ho'.withData d, ?_, ?_, by rw [hf]; rfl, by rw [hf]; exact addSizes_typ _ _, trivial⟩, ?_,
    ha.cfg _, cs, ha.pend, by rw [hf]; simp only [FSN.addTrees]; rw [blocksL_append, blocksL_toLinks _ (cfgOK db) ts hlim, hc]⟩
  · rw [hf]
    simp only [FSN.addTrees, List.length_append, T.toLinks_length]
    intro hl
    by_cases hts : ts = []
    · subst hts; simp only [T.toLinks, List.append_nil]; exact hs (by simpa using hl)
    · obtain ⟨pre, last, rfl⟩ : ∃ pre last, ts = pre ++ [last] := ⟨ts.dropLast, ts.getLast hts, (List.dropLast_concat_getLast hts).symm⟩
      obtain ⟨D, ht⟩ := hQ _ _ hq hts hl last (by simp)
      rw [T.toLinks_append, ← List.append_assoc]
      simp only [T.toLinks]
      rw [appendableLast_snoc]
      exact appendable_node m _ ht
  · rw [hf]
    simp only [FSN.addTrees]
    intro l' hl' x hx
    rcases List.mem_append.mp hl' with hl' | hl'
    · exact .inl ⟨l', hl', hx⟩
    · right
      have := reach_toLinks (db.cfg TRaw) ts l' x hl' hx
      rw [← hn] at this
      obtain ⟨b, hb, he⟩ := List.mem_map.mp this
      exact ⟨b, hb, he⟩
  · rw [hf]
    simp only [FSN.addTrees]
    intro hg
    rw [growableFrom_append]
    refine ⟨hg, ?_⟩
    by_cases hl : m < fsn.links.length + ts.length
    · by_cases hts : ts = []
      · subst hts; trivial
      · refine growableFrom_all m _ _ ?_
        intro l hl'
        rw [T.toLinks_eq_map] at hl'
        obtain ⟨t, ht, rfl⟩ := List.mem_map.mp hl'
        obtain ⟨D, hD⟩ := hQ ts _ hq hts hl t ht
        exact growable_node m _ hD
    · exact growableFrom_small m _ _ (by rw [T.toLinks_length]; omega)

theorem AOK.refl {m : Nat} {fsn : FSN} {c : Bytes} {db db' : DB} (ho : fsn.OK c) (hs : m < fsn.links.length → AppendableLast m fsn.links)
    (ha : Adv db [] [] db') : AOK m fsn c db fsn db' (fun _ _ => True) :=
  ⟨⟨[], [], ha, by simpa using ho, hs, fun l hl x hx => .inl ⟨l, hl, hx⟩, rfl, rfl, trivial⟩, id, Kept.of_adv ha⟩

theorem split_last {ts : List T} (h : ts ≠ []) : ∃ pre last, ts = pre ++ [last] :=
  ⟨ts.dropLast, ts.getLast h, (List.dropLast_concat_getLast h).symm⟩

theorem direct_appendable {m n : Nat} {mo0 mo : Prop} {ts : List T} (h : DirectQ m n mo0 ts mo) (hne : ts ≠ []) (hl : m < n + ts.length) : False := by
  have := h.2.1
  have := List.length_pos_iff.mpr hne
  omega

/-- The trees built at `depth` for the repeat loop, and in the loops over depths. -/
theorem boundedGrow_spec (m : Nat) (hm0 : 0 < m) (k : Nat) : ∀ (i : Nat) (fsn : FSN) (db : DB), db.maxlinks = m → db.Inv →
    GrowOK (fun ts _ => ∀ t ∈ ts, ∃ D, Trk m D t) fsn db (boundedGrow k i fsn db) := by
  induction k with
  | zero => intro i fsn db hm hi; exact GrowOK.refl fsn db hi (by simp)
  | succ k ih =>
    intro i fsn db hm hi
    unfold boundedGrow
    refine GrowOK.of_done hi ?_
    have hd2 := done_adv db hi
    cases hdn : db.done with
    | mk b db1 =>
      rw [hdn] at hd2
      cases b with
      | true => exact GrowOK.refl fsn db1 hd2.inv (by simp)
      | false =>
        have hm1 : db1.maxlinks = m := by rw [hd2.maxlinks, hm]
        have hrep := repeat_spec (subTrickle_spec m hm0 i) depthRepeat fsn db1 hm1 hd2.inv
        exact GrowOK.bind (f := fun fsn db => boundedGrow k (i + 1) fsn db) (Q2 := fun ts _ => ∀ t ∈ ts, ∃ D, Trk m D t) hrep
          (fun fsn' db' hr => by
            rw [hr] at hrep
            obtain ⟨_, _, _, _, ha, _⟩ := hrep
            exact ih (i + 1) fsn' db' (by rw [ha.maxlinks, hm1]) ha.inv)
          (fun ts1 ts2 m1 m2 h1 h2 _ _ t ht => by
            rcases List.mem_append.mp ht with ht | ht
            · exact ⟨i, h1.1 t ht⟩
            · exact h2 t ht)

theorem AFail.of_adv {db db' : DB} {cs new} {links : List Link} {h : Nat} {e : Err} (a : Adv db cs new db') (hf : AFail db' links h e) :
    AFail db links h e := by
  rcases hf with h | ⟨he, hm, pre, l, hl, x, hx, hg⟩ | h
  · exact .inl (Fail.of_adv a h)
  · rw [a.maxlinks] at hm hx
    exact .inr (.inl ⟨he, hm, pre, l, hl, x, hx, by rw [← a.canGet]; exact hg⟩)
  · exact .inr (.inr h)

theorem AResult.of_done {m : Nat} {fsn : FSN} {c : Bytes} {db : DB} {h : Nat} {Q : DB → Prop} {r} (hi : db.Inv)
    (hr : AResult m fsn c db.done.2 h Q r) : AResult m fsn c db h Q r := by
  have ha := done_adv db hi
  cases r with
  | error e => exact AFail.of_adv ha hr
  | ok q =>
    obtain ⟨fsn', db'⟩ := q
    obtain ⟨h1, h2⟩ := hr
    obtain ⟨cs, new, ha2, rest⟩ := h1.ex
    exact ⟨⟨⟨cs, new, by simpa using ha.trans ha2, rest⟩, h1.grow, (Kept.of_adv ha).trans h1.kept⟩, h2⟩

/-- Reached nodes on the last child. -/
theorem last_link {fsn : FSN} {c : Bytes} (ho : fsn.OK c) {m : Nat} (hl : m < fsn.numChildren) :
    ∃ pre l, fsn.links = pre ++ [l] ∧ fsn.links[fsn.numChildren - 1]? = some l := by
  have hne : fsn.links ≠ [] := by
    intro h; rw [ho.num, h] at hl; simp at hl
  have hs := (List.dropLast_concat_getLast hne).symm
  refine ⟨fsn.links.dropLast, fsn.links.getLast hne, hs, ?_⟩
  rw [ho.num, ← List.getLast?_eq_getElem?, List.getLast?_eq_some_getLast hne]

/-- What `appendRec` must do on the last child. -/
def RecOK (m h : Nat) (rec : FSN → DB → Int → Except Err ((FSN × UInt64) × DB)) : Prop :=
  ∀ (fsn : FSN) (c : Bytes) (db : DB) (d : Int), db.maxlinks = m → db.Inv → fsn.OK c →
    (m < fsn.links.length → AppendableLast m fsn.links) →
    match rec fsn db d with
    | .ok ((fsn', sz), db') => AOK m fsn c db fsn' db' (fun _ _ => True) ∧ sz = fsn'.fileSize
    | .error e => AFail db fsn.links h e

theorem appendFillLastChild_spec (m : Nat) (hm0 : 0 < m) (h : Nat) (rec) (hrec : RecOK m h rec) (fsn : FSN) (c : Bytes) (depth rep : Nat) (db : DB)
    (hm : db.maxlinks = m) (hi : db.Inv) (ho : fsn.OK c) (hs : m < fsn.links.length → AppendableLast m fsn.links) :
    AResult m fsn c db (h + 1) (fun _ => True) (appendFillLastChild rec fsn depth rep db) := by
  unfold appendFillLastChild
  rw [hm]
  by_cases hle : fsn.numChildren ≤ m
  · rw [if_pos hle]; exact ⟨AOK.refl ho hs (Adv.refl db hi), trivial⟩
  rw [if_neg hle]
  obtain ⟨pre, l, hlinks, hget⟩ := last_link ho (m := m) (by omega)
  have hspine : Appendable m l.target := by
    have := hs (by rw [← ho.num]; omega)
    rw [hlinks, appendableLast_snoc] at this; exact this
  obtain ⟨fsnR, cp, cl, hrem, hoR, hcl, hc, hRl, hRb, hRt⟩ := ho.removeLast hlinks
  have hmem : l ∈ fsn.links := by rw [hlinks]; simp
  have hsl : SizesTrue l.target := by
    have := ho.sizes
    rw [hlinks, sizesTrueL_append] at this
    obtain ⟨a, b, n⟩ := l
    exact this.2.1
  simp only [FSN.getChild, hget]
  by_cases hg : db.canGet l.target = true
  swap
  · rw [if_neg hg]
    exact .inr (.inl ⟨rfl, by rw [hm, ← ho.num]; omega, pre, l, hlinks, l.target, .inl rfl, by simpa using hg⟩)
  rw [if_pos hg]
  cases hlt : l.target with
  | raw d b => rw [hlt] at hspine; exact hspine.elim
  | other d => rw [hlt] at hspine; exact hspine.elim
  | proto d ls b =>
    rw [hlt] at hspine hsl hcl
    obtain ⟨fsnL, hfd, hoL, hLl, hLb, hLu⟩ := fromDag_ok hsl hspine.1 hcl
    simp only [hfd]
    have hr := hrec fsnL cl db ((depth : Int) - 1) hm hi hoL (by rw [hLl]; exact hspine.2)
    cases hre : rec fsnL db ((depth : Int) - 1) with
    | error e =>
      rw [hre] at hr
      simp only
      rcases hr with hf | ⟨he, hbig, pre', l', hl', x, hx, hgx⟩ | ⟨he, hh⟩
      · exact .inl hf
      · refine .inr (.inl ⟨he, by rw [hm, ← ho.num]; omega, pre, l, hlinks, x, .inr ?_, hgx⟩)
        rw [hlt]; rw [hLl] at hl' hbig
        rcases hx with rfl | hx
        · exact .last (x := .proto d ls b) hl' hbig
        · exact .down (x := .proto d ls b) hl' hbig hx
      · refine .inr (.inr ⟨he, ?_⟩)
        have h1 := heightL_mem hmem
        rw [hlt] at h1
        simp only [height] at h1
        rw [hLl] at hh
        omega
    | ok q =>
      obtain ⟨⟨fsnN, sz⟩, db1⟩ := q
      rw [hre] at hr
      obtain ⟨hA, hsz⟩ := hr
      obtain ⟨cs, new, ha, hoN, hsN, hrN, hbN, htN, -⟩ := hA.ex
      simp only [hrem]
      rw [FSN.commit_of_typ _ (IsFileMsg.isSome hoN.typ)]
      simp only [FSN.addChild]
      have hnode := hoN.node fsnN.builder
      rcases add_spec db1 ⟨.proto fsnN.file.bytes fsnN.links fsnN.builder, none⟩ ha.inv with ⟨db2, h2, hadd⟩ | ⟨h2, hb⟩
      swap
      · simp only [h2]
        exact .inl (.inr (.inr ⟨rfl, fun hn => hb (ha.budget hn)⟩))
      simp only [h2]
      have ha2 := ha.trans hadd
      -- the node with the last child replaced
      have hoF := hoR.add (n := .proto fsnN.file.bytes fsnN.links fsnN.builder) hnode.1 hnode.2
        (makeLink [] (.proto fsnN.file.bytes fsnN.links fsnN.builder)) rfl
      have hszeq : sz = UInt64.ofNat (cl ++ cs.flatten).length := by rw [hsz, hoN.fileSize]
      rw [hszeq]
      set fsnF : FSN := { fsnR with links := fsnR.links ++ [makeLink [] (.proto fsnN.file.bytes fsnN.links fsnN.builder)]
                                    file := fsnR.file.addBlockSize (UInt64.ofNat (cl ++ cs.flatten).length) } with hF
      have hsF : m < fsnF.links.length → AppendableLast m fsnF.links := by
        intro _
        rw [hF]; simp only
        rw [appendableLast_snoc]
        simp only [makeLink, Link.target, Appendable]
        exact ⟨⟨_, hoN.unmarshal, hoN.data⟩, hsN⟩
      have hAF : AOK m fsn c db fsnF db2 (fun _ _ => True) := by
        refine ⟨⟨cs, new ++ [⟨.proto fsnN.file.bytes fsnN.links fsnN.builder, none⟩], by simpa using ha2, ?_, hsF, ?_, hRb, ?_, trivial⟩, ?_, ?_⟩
        · rw [hc]; simpa using hoF
        · intro l' hl' x hx
          simp only [hF, hRl, List.mem_append, List.mem_singleton] at hl'
          rcases hl' with hl' | rfl
          · exact .inl ⟨l', by rw [hlinks]; simp [hl'], hx⟩
          · simp only [makeLink, Link.target] at hx
            cases hx with
            | refl => exact .inr ⟨⟨.proto fsnN.file.bytes fsnN.links fsnN.builder, none⟩, by simp, rfl⟩
            | step hl2 hx =>
              simp only [Node.links] at hl2
              rcases hrN _ hl2 x hx with ⟨l3, hl3, hx3⟩ | ⟨b', hb', he'⟩
              · left
                refine ⟨l, hmem, ?_⟩
                rw [hlt]; rw [hLl] at hl3
                exact .step (l := l3) (by simpa [Node.links] using hl3) hx3
              · exact .inr ⟨b', by simp [hb'], he'⟩
        · simp [hF, FSNode.addBlockSize, FSNode.updateFilesize, hRt]
        · intro hg
          rw [hlinks, growableFrom_append] at hg
          simp only [hF, hRl]
          rw [growableFrom_append]
          refine ⟨hg.1, fun hm' => ?_, trivial⟩
          obtain ⟨a, b', n⟩ := l
          have hgl : Growable m n := hg.2.1 hm'
          simp only [Link.target] at hlt
          rw [hlt] at hgl
          exact ⟨⟨_, hoN.unmarshal, hoN.data⟩, hA.grow (by rw [hLl]; exact hgl.2)⟩
        · obtain ⟨hcf, cs', hp', hb'⟩ := hA.kept.trans (Kept.of_adv (fsn := fsnN) (new := _) hadd)
          refine ⟨hcf, cs', hp', ?_⟩
          simp only [hF, hRl]
          rw [hlinks, blocksL_append, blocksL_append, blocksL_one, blocksL_one, hlt]
          simp only [makeLink, Link.target]
          rw [blocks_proto, blocks_proto, hb', hLl, List.append_assoc]
          · intro he
            have := hoL.cont
            rw [hLl, he] at this
            rw [hcl]; simpa [contentL] using this.symm
          · intro he
            have := hoN.cont
            rw [he] at this
            rw [hnode.1]; simpa [contentL] using this.symm
      by_cases hrep : rep ≠ 0
      · rw [if_pos hrep]
        have hm2 : db2.maxlinks = m := by rw [ha2.maxlinks, hm]
        have hg := repeat_spec (subTrickle_spec m hm0 depth) (depthRepeat - rep) fsnF db2 hm2 hadd.inv
        cases hgr : repeatLoop (subTrickle depth) (depthRepeat - rep) fsnF db2 with
        | error e =>
          rw [hgr] at hg
          exact .inl (Fail.of_adv ha2 hg)
        | ok q =>
          obtain ⟨fsn2, db3⟩ := q
          refine ⟨hAF.trans (fun c1 h1 h2 => AOK.of_grow hgr (hg) h1 h2 ?_), trivial⟩
          intro ts mo hq hne _ t ht
          exact ⟨depth, hq.1 t ht⟩
      · rw [if_neg hrep]; exact ⟨hAF, trivial⟩

theorem appendDirect_spec (m : Nat) (fsn : FSN) (c : Bytes) (db : DB) (hm : db.maxlinks = m) (hi : db.Inv) (ho : fsn.OK c)
    (hs : m < fsn.links.length → AppendableLast m fsn.links) :
    match appendDirect fsn db with
    | .ok ((fsn', _), db') => AOK m fsn c db fsn' db' (fun _ _ => True) ∧ (fsn'.links.length ≤ m ∨ fsn'.links = fsn.links)
    | .error e => Fail db e := by
  unfold appendDirect
  by_cases hd : (depthInfo fsn db.maxlinks).1 = 0
  · rw [if_pos hd]
    have hg := fillNodeLayer_spec fsn db hi (IsFileMsg.isSome ho.typ)
    cases hgr : DB.fillNodeLayer fsn db with
    | error e => rw [hgr] at hg; exact hg
    | ok q =>
      obtain ⟨fsn1, db1⟩ := q
      refine ⟨AOK.of_grow hgr hg ho hs ?_, ?_⟩
      · intro ts mo hq hne hl
        rw [hm, ho.num] at hq
        exact (direct_appendable hq hne hl).elim
      · rw [hgr] at hg
        obtain ⟨ts, cs, new, d, ha, hf, hc, -, hq, hn, -⟩ := hg
        rw [hm, ho.num] at hq
        rw [hf]
        by_cases hts : ts = []
        · right; subst hts; simp [FSN.addTrees, T.toLinks]
        · left
          by_contra hcon
          refine direct_appendable hq hts ?_
          simp only [FSN.addTrees, List.length_append, T.toLinks_length] at hcon
          omega
  · rw [if_neg hd]; exact ⟨AOK.refl ho hs (Adv.refl db hi), .inr rfl⟩

theorem appendRec_spec (m : Nat) (hm0 : 0 < m) (h : Nat) : RecOK m h (appendRec h) := by
  induction h with
  | zero =>
    intro fsn c db d hm hi ho hs
    exact .inr (.inr ⟨rfl, Nat.zero_le _⟩)
  | succ h ih =>
    intro fsn c db d hm hi ho hs
    unfold appendRec
    by_cases hd0 : d = 0
    · rw [if_pos hd0]; exact ⟨AOK.refl ho hs (Adv.refl db hi), rfl⟩
    rw [if_neg hd0]
    have ha0 := done_adv db hi
    cases hdn : db.done with
    | mk b db0 =>
      rw [hdn] at ha0
      cases b with
      | true => exact ⟨AOK.refl ho hs ha0, rfl⟩
      | false =>
        simp only
        have hm0' : db0.maxlinks = m := by rw [ha0.maxlinks, hm]
        have h1 := appendDirect_spec m fsn c db0 hm0' ha0.inv ho hs
        cases hr1 : appendDirect fsn db0 with
        | error e => rw [hr1] at h1; exact .inl (Fail.of_adv ha0 h1)
        | ok q =>
          obtain ⟨⟨fsn1, depth⟩, db1⟩ := q
          rw [hr1] at h1
          obtain ⟨h1, hsame⟩ := h1
          have h1' : AOK m fsn c db fsn1 db1 (fun _ _ => True) := by
            obtain ⟨cs, new, ha, rest⟩ := h1.ex
            exact ⟨⟨cs, new, by simpa using ha0.trans ha, rest⟩, h1.grow, (Kept.of_adv ha0).trans h1.kept⟩
          simp only
          by_cases hdd : (depth : Int) = d
          · rw [if_pos hdd]; exact ⟨h1', rfl⟩
          rw [if_neg hdd]
          obtain ⟨cs1, new1, ha1, ho1, hs1, hr1', hb1, ht1, -⟩ := h1'.ex
          have hm1 : db1.maxlinks = m := by rw [ha1.maxlinks, hm]
          have h2 := appendFillLastChild_spec m hm0 h (appendRec h) ih fsn1 _ depth (depthInfo fsn db0.maxlinks).2 db1 hm1 ha1.inv ho1 hs1
          cases hr2 : appendFillLastChild (appendRec h) fsn1 depth (depthInfo fsn db0.maxlinks).2 db1 with
          | error e =>
            rw [hr2] at h2
            simp only
            have hbig : ¬ fsn1.links.length ≤ m := by
              intro hle
              unfold appendFillLastChild at hr2
              rw [hm1, if_pos (by rw [ho1.num]; exact hle)] at hr2
              cases hr2
            replace h2 : AFail db1 fsn1.links (h + 1) e := h2
            rw [hsame.resolve_left hbig] at h2
            exact AFail.of_adv ha1 h2
          | ok q =>
            obtain ⟨fsn2, db2⟩ := q
            rw [hr2] at h2
            have h12 : AOK m fsn c db fsn2 db2 (fun _ _ => True) := h1'.trans (fun c1 hc1 hs1' => by
              have := appendFillLastChild_spec m hm0 h (appendRec h) ih fsn1 c1 depth (depthInfo fsn db0.maxlinks).2 db1 hm1 ha1.inv hc1 hs1'
              rw [hr2] at this; exact this.1)
            obtain ⟨cs2, new2, ha2, ho2, hs2, -, -, -, -⟩ := h12.ex
            simp only
            have had := done_adv db2 ha2.inv
            have hmd : db2.done.2.maxlinks = m := by rw [had.maxlinks, ha2.maxlinks, hm]
            generalize hdep : (if db2.done.1 = true then depth else depth + 1) = dep
            have hg := boundedGrow_spec m hm0 (d - dep).toNat dep fsn2 db2.done.2 hmd had.inv
            cases hgr : boundedGrow (d - dep).toNat dep fsn2 db2.done.2 with
            | error e =>
              rw [hgr] at hg
              exact .inl (Fail.of_adv ha2 (Fail.of_adv had hg))
            | ok q =>
              obtain ⟨fsn3, db3⟩ := q
              refine ⟨h12.trans (fun c1 hc1 hs1' => ?_), rfl⟩
              have := AOK.of_grow hgr hg hc1 hs1' (by
                intro ts mo hq hne _
                exact hq)
              obtain ⟨cs, new, ha, rest⟩ := this.ex
              exact ⟨⟨cs, new, by simpa using had.trans ha, rest⟩, this.grow, (Kept.of_adv had).trans this.kept⟩

/-- `FillNodeLayer` commits the node. -/
theorem fillNodeLayer_commit {fsn fsn' : FSN} {db db' : DB} (h : DB.fillNodeLayer fsn db = .ok (fsn', db'))
    (ht : fsn'.file.format.typ.isSome) : fsn'.dagData = fsn'.file.bytes := by
  unfold DB.fillNodeLayer at h
  split at h
  · cases h
  · rename_i node db1 _
    split at h
    · cases h
    · rename_i n' node' hc
      simp only [Except.ok.injEq, Prod.mk.injEq] at h
      obtain ⟨rfl, rfl⟩ := h
      have hfile : node'.file = node.file := by
        unfold FSN.commit at hc
        split at hc <;> simp at hc
        rw [← hc.2]
      rw [FSN.commit_of_typ node (by rw [← hfile]; exact ht)] at hc
      simp only [Except.ok.injEq, Prod.mk.injEq] at hc
      rw [← hc.2]

/-- The result of `Append` on the node `fsn` with content `c`. -/
def AppendOK (m : Nat) (fsn : FSN) (c : Bytes) (db : DB) (fuel h : Nat) : Except Err (Node × DB) → Prop
  | .ok (n, db') => ∃ fsn', AOK m fsn c db fsn' db' (fun cs _ => cs = db.pend) ∧ ¬db'.More ∧
      n = .proto fsn'.file.bytes fsn'.links fsn'.builder
  | .error e => Fail db e ∨ (m < fsn.links.length ∧ AFail db fsn.links h e) ∨ (e = .outOfFuel ∧ fuel ≤ db.pend.length)

theorem adv_all {db db' : DB} {cs new} (ha : Adv db cs new db') (hn : ¬db'.More) : cs = db.pend := by
  unfold DB.More at hn
  rw [not_not] at hn
  rw [ha.pend, hn.1, List.append_nil]

theorem appendRest_spec (m : Nat) (hm0 : 0 < m) (fuel h : Nat) (fsn : FSN) (c : Bytes) (depth rep : Nat) (db : DB)
    (hm : db.maxlinks = m) (hi : db.Inv) (ho : fsn.OK c) (hs : m < fsn.links.length → AppendableLast m fsn.links) :
    AppendOK m fsn c db fuel (h + 1) (appendRest fuel h fsn depth rep db) := by
  unfold appendRest
  have h2 := appendFillLastChild_spec m hm0 h (appendRec h) (appendRec_spec m hm0 h) fsn c (depth - 1) rep db hm hi ho hs
  cases hr2 : appendFillLastChild (appendRec h) fsn (depth - 1) rep db with
  | error e =>
    have hbig : m < fsn.links.length := by
      by_contra hle
      unfold appendFillLastChild at hr2
      rw [if_pos (by rw [ho.num, hm]; omega)] at hr2
      cases hr2
    rw [hr2] at h2; exact .inr (.inl ⟨hbig, h2⟩)
  | ok q =>
    obtain ⟨fsn2, db2⟩ := q
    rw [hr2] at h2
    have h12 := h2.1
    obtain ⟨cs2, new2, ha2, ho2, hs2, -, -, -, -⟩ := h12.ex
    simp only
    have had := done_adv db2 ha2.inv
    have hmd : db2.done.2.maxlinks = m := by rw [had.maxlinks, ha2.maxlinks, hm]
    generalize hdep : (if db2.done.1 = true then depth else depth + 1) = dep
    obtain ⟨hg1, hg⟩ := growLoop_spec m hm0 fuel dep fsn2 db2.done.2 hmd had.inv
    cases hgr : growLoop fuel dep fsn2 db2.done.2 with
    | error e =>
      rw [hgr] at hg hg1
      by_cases he : e = .outOfFuel
      · subst he
        rcases hg1 with hf | hf
        · exact .inl (Fail.of_adv ha2 (Fail.of_adv had hf))
        · refine .inr (.inr ⟨rfl, ?_⟩)
          rw [ha2.pend, had.pend]; simp only [List.nil_append, List.length_append]; omega
      · rcases hg with hg | hg
        · exact absurd (by injection hg) he
        · exact .inl (Fail.of_adv ha2 (Fail.of_adv had hg))
    | ok q =>
      obtain ⟨fsn3, db3⟩ := q
      have hg' := hg.resolve_left (by rw [hgr]; simp)
      have hA : AOK m fsn c db fsn3 db3 (fun _ _ => True) := h12.trans (fun c1 hc1 hs1' => by
        have := AOK.of_grow hgr hg' hc1 hs1' (by
          intro ts mo hq hne _ t ht
          obtain ⟨j, hj, he⟩ := List.getElem_of_mem ht
          exact ⟨_, hq.2 j t (by rw [List.getElem?_eq_getElem hj, he])⟩)
        obtain ⟨cs, new, ha, rest⟩ := this.ex
        exact ⟨⟨cs, new, by simpa using had.trans ha, rest⟩, this.grow, (Kept.of_adv had).trans this.kept⟩)
      have hnm : ¬db3.More := by
        rw [hgr] at hg'
        obtain ⟨_, _, _, _, _, _, _, _, hq, _⟩ := hg'
        exact hq.1
      obtain ⟨cs, new, ha, ho3, rest⟩ := hA.ex
      simp only
      rw [FSN.commit_of_typ _ (IsFileMsg.isSome ho3.typ)]
      exact ⟨fsn3, ⟨⟨cs, new, ha, ho3, rest.1, rest.2.1, rest.2.2.1, rest.2.2.2.1, adv_all ha hnm⟩, hA.grow, hA.kept⟩, hnm, rfl⟩

theorem append_spec (m : Nat) (hm0 : 0 < m) (fuel h : Nat) (d : Bytes) (ls : List Link) (b : Builder) (db : DB) (c : Bytes)
    (hm : db.maxlinks = m) (hi : db.Inv) (hs : SizesTrue (.proto d ls b)) (ha : Appendable m (.proto d ls b))
    (hc : content (.proto d ls b) = some c) :
    ∃ fsn, FSN.fromDag d ls b = .ok fsn ∧ fsn.OK c ∧ fsn.links = ls ∧ fsn.builder = b ∧ Pb.Data.unmarshal d = .ok fsn.file.format ∧
      AppendOK m fsn c db fuel (h + 1) (append fuel h (.proto d ls b) db) := by
  obtain ⟨fsn, hfd, ho, hl, hb, hu⟩ := fromDag_ok hs ha.1 hc
  refine ⟨fsn, hfd, ho, hl, hb, hu, ?_⟩
  have hsp : m < fsn.links.length → AppendableLast m fsn.links := by rw [hl]; exact ha.2
  unfold append
  simp only [hfd]
  by_cases hd : (depthInfo fsn db.maxlinks).1 = 0
  · rw [if_pos hd]
    have hg := fillNodeLayer_spec fsn db hi (IsFileMsg.isSome ho.typ)
    have hdir := appendDirect_spec m fsn c db hm hi ho hsp
    unfold appendDirect at hdir
    rw [if_pos hd] at hdir
    cases hgr : DB.fillNodeLayer fsn db with
    | error e => rw [hgr] at hg; exact .inl hg
    | ok q =>
      obtain ⟨fsn1, db1⟩ := q
      rw [hgr] at hdir
      obtain ⟨hA, hsame⟩ := hdir
      obtain ⟨cs, new, hadv, ho1, hs1, hr1, hb1, ht1, -⟩ := hA.ex
      simp only
      have hdi := done_iff db1 hadv.inv
      have hda := done_adv db1 hadv.inv
      have hdm := done_more db1 hadv.inv
      cases hdn : db1.done with
      | mk bb db2 =>
        rw [hdn] at hdi hda hdm
        cases bb with
        | true =>
          simp only
          have hnm : ¬db2.More := by rw [hdm]; exact hdi.mp rfl
          have ha2 : Adv db cs new db2 := by simpa using hadv.trans hda
          refine ⟨fsn1, ⟨⟨cs, new, ha2, ho1, hs1, hr1, hb1, ht1, adv_all ha2 hnm⟩, hA.grow, hA.kept.trans (Kept.of_adv hda)⟩, hnm, ?_⟩
          simp [FSN.getDagNode, fillNodeLayer_commit hgr (IsFileMsg.isSome ho1.typ)]
        | false =>
          simp only
          have hrest := appendRest_spec m hm0 fuel h fsn1 _ 1 (depthInfo fsn db.maxlinks).2 db2
            (by rw [hda.maxlinks, hadv.maxlinks, hm]) hda.inv ho1 hs1
          have ha2 : Adv db cs new db2 := by simpa using hadv.trans hda
          cases hrr : appendRest fuel h fsn1 1 (depthInfo fsn db.maxlinks).2 db2 with
          | error e =>
            rw [hrr] at hrest
            rcases hrest with hf | ⟨hbig, hf⟩ | ⟨he, hf⟩
            · exact .inl (Fail.of_adv ha2 hf)
            · rw [hsame.resolve_left (by omega)] at hf hbig
              exact .inr (.inl ⟨hbig, AFail.of_adv ha2 hf⟩)
            · refine .inr (.inr ⟨he, ?_⟩)
              rw [ha2.pend, List.length_append]; omega
          | ok q =>
            obtain ⟨n, db3⟩ := q
            rw [hrr] at hrest
            obtain ⟨fsn3, hA3, hnm, hn⟩ := hrest
            obtain ⟨cs3, new3, ha3, ho3, hs3, hr3, hb3, ht3, hcs⟩ := hA3.ex
            have haa := ha2.trans ha3
            refine ⟨fsn3, ⟨⟨cs ++ cs3, new ++ new3, haa, by simpa using ho3, hs3, ?_, by rw [hb3, hb1], by rw [ht3, ht1], adv_all haa hnm⟩,
              fun hg => hA3.grow (hA.grow hg), (hA.kept.trans (Kept.of_adv hda)).trans hA3.kept⟩, hnm, hn⟩
            intro l' hl' x hx
            rcases hr3 l' hl' x hx with ⟨l, hl, hx⟩ | ⟨b', hb', he'⟩
            · rcases hr1 l hl x hx with h' | ⟨b', hb', he'⟩
              · exact .inl h'
              · exact .inr ⟨b', by simp [hb'], he'⟩
            · exact .inr ⟨b', by simp [hb'], he'⟩
  · rw [if_neg hd]
    exact appendRest_spec m hm0 fuel h fsn c _ _ db hm hi ho hsp

end Trickle
end Unixfs.Import
