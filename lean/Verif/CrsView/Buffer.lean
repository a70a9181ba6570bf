import Mathlib.Logic.Function.Basic
import Mathlib.Data.List.Range
import Mathlib.Logic.Relation
import Mathlib.Tactic.Common

/-!
# The streamed buffer (cuda_streamed_buffer.h)

The host and two streams of the device run at the same time.  A stream does the operations in its queue one
after the other, in the order in which the host has put them there; the numbers of a copy and the threads of a
kernel come in any order.  The host waits only for events and for streams.  Failures of CUDA are not modelled.
-/
namespace Ceres.CrsView

variable {K : Type}

/-- Where a transfer to the device reads from: the page-locked buffer `values_cpu_pinned_` or the array of the
caller, from a position on. -/
inductive Src where
  | pinned (p : ℕ)
  | user (p : ℕ)
  deriving DecidableEq

/-- What a stream has in its queue: `cudaMemcpyAsync` to `values_gpu_ + dst`, `cudaEventRecord` and the kernel
the callback launches, with the address and the offset of the batch.  `todo`: the numbers not yet transferred,
the threads that have not run. -/
inductive Op where
  | memcpy (dst : ℕ) (src : Src) (todo : List ℕ)
  | record
  | kernel (ptr offset : ℕ) (todo : List ℕ)
  deriving DecidableEq

/-- Where the host is in `CopyToGpu` (cuda_streamed_buffer.h:245-302): at the head of the loop, in
`std::copy_n`, before `cudaMemcpyAsync`, in the loop of `cudaStreamSynchronize`, after the return.
`undefined`: a thread of a kernel has read an array out of range. -/
inductive Host where
  | batch (offset batchId : ℕ)
  | copy (offset batchId : ℕ) (todo : List ℕ)
  | launch (offset batchId : ℕ)
  | sync (i : ℕ)
  | done
  | undefined
  deriving DecidableEq

/-- `values_cpu_pinned_`, `values_gpu_`, the array that the kernels write, the queues of the streams, the
host. -/
structure St (K : Type) where
  pinned : ℕ → K
  gpu : ℕ → K
  out : ℕ → K
  queue : ℕ → List Op
  host : Host

/-- A call `CopyToGpu(from, num_values, callback)`: `per` is `kValuesPerBatch`, `viaPinned` is what
`MemoryTypeResultsInSynchronousCopy(from)` returns (308-327).  The callback launches a kernel whose thread `t`
stores the value `t` of the batch at the place `dest (offset + t)`, or nowhere (`some none`); `none`: the
thread reads out of range to find the place. -/
structure Call (K : Type) where
  «from» : ℕ → K
  num : ℕ
  per : ℕ
  viaPinned : Bool
  dest : ℕ → Option (Option ℕ)

/-- `num_values_batch` (265-266). -/
def Call.size (c : Call K) (offset : ℕ) : ℕ := min (c.num - offset) c.per

/-- `batch_values_gpu[batch_id]` and `batch_values_cpu[batch_id]` relative to their arrays (259-262). -/
def Call.slot (c : Call K) (b : ℕ) : ℕ := c.per * b

/-- `batch_from` when the transfer starts (267, 277). -/
def Call.src (c : Call K) (offset b : ℕ) : Src := if c.viaPinned then .pinned (c.slot b) else .user offset

/-- What the host puts in the stream of the batch (279-295).  It does so with three calls; it looks at nothing
the device does in between. -/
def Call.ops (c : Call K) (offset b : ℕ) : List Op :=
  Op.memcpy (c.slot b) (c.src offset b) (List.range (c.size offset)) ::
    ((if c.viaPinned then [.record] else []) ++ [.kernel (c.slot b) offset (List.range (c.size offset))])

/-- `kNumBatches` (67). -/
def numBatches : ℕ := 2

/-- What a transfer reads. -/
def Call.read (c : Call K) (s : St K) (src : Src) (j : ℕ) : K :=
  match src with
  | .pinned p => s.pinned (p + j)
  | .user p => c.«from» (p + j)

/-- `crs_values[place] = ...`, for a thread that has a place. -/
def store (a : ℕ → K) (o : Option ℕ) (v : K) : ℕ → K :=
  match o with
  | some q => Function.update a q v
  | none => a

/-- One step of the host or of a stream `b`. -/
inductive Step (c : Call K) : St K → St K → Prop where
  /-- `cudaEventSynchronize(copy_finished)` (275): no event recorded in the stream is still to come. -/
  | wait {s : St K} {off b : ℕ} : s.host = .batch off b → off < c.num → c.viaPinned = true →
      Op.record ∉ s.queue b → Step c s { s with host := .copy off b (List.range (c.size off)) }
  /-- The array of the caller is page-locked (272). -/
  | direct {s : St K} {off b : ℕ} : s.host = .batch off b → off < c.num → c.viaPinned = false →
      Step c s { s with host := .launch off b }
  /-- A number of `std::copy_n` (276). -/
  | copy {s : St K} {off b j : ℕ} {todo : List ℕ} : s.host = .copy off b todo → j ∈ todo →
      Step c s { s with
        pinned := Function.update s.pinned (c.slot b + j) (c.«from» (off + j))
        host := .copy off b (todo.erase j) }
  | copied {s : St K} {off b : ℕ} : s.host = .copy off b [] → Step c s { s with host := .launch off b }
  /-- The calls at the end of the loop and `batch_id = (batch_id + 1) % kNumBatches` (279-296). -/
  | launch {s : St K} {off b : ℕ} : s.host = .launch off b →
      Step c s { s with
        queue := Function.update s.queue b (s.queue b ++ c.ops off b)
        host := .batch (off + c.per) ((b + 1) % numBatches) }
  | exit {s : St K} {off b : ℕ} : s.host = .batch off b → c.num ≤ off → Step c s { s with host := .sync 0 }
  /-- `cudaStreamSynchronize(streams[i])` (299-301). -/
  | sync {s : St K} {i : ℕ} : s.host = .sync i → i < numBatches → s.queue i = [] →
      Step c s { s with host := .sync (i + 1) }
  | «return» {s : St K} {i : ℕ} : s.host = .sync i → numBatches ≤ i → Step c s { s with host := .done }
  /-- A number of a transfer. -/
  | transfer {s : St K} {b d j : ℕ} {src : Src} {todo : List ℕ} {rest : List Op} : b < numBatches →
      s.queue b = .memcpy d src todo :: rest → j ∈ todo →
      Step c s { s with
        gpu := Function.update s.gpu (d + j) (c.read s src j)
        queue := Function.update s.queue b (.memcpy d src (todo.erase j) :: rest) }
  | transferred {s : St K} {b d : ℕ} {src : Src} {rest : List Op} : b < numBatches →
      s.queue b = .memcpy d src [] :: rest → Step c s { s with queue := Function.update s.queue b rest }
  | record {s : St K} {b : ℕ} {rest : List Op} : b < numBatches → s.queue b = .record :: rest →
      Step c s { s with queue := Function.update s.queue b rest }
  /-- A thread of a kernel. -/
  | thread {s : St K} {b p off j : ℕ} {o : Option ℕ} {todo : List ℕ} {rest : List Op} : b < numBatches →
      s.queue b = .kernel p off todo :: rest → j ∈ todo → c.dest (off + j) = some o →
      Step c s { s with
        out := store s.out o (s.gpu (p + j))
        queue := Function.update s.queue b (.kernel p off (todo.erase j) :: rest) }
  | outOfRange {s : St K} {b p off j : ℕ} {todo : List ℕ} {rest : List Op} : b < numBatches →
      s.queue b = .kernel p off todo :: rest → j ∈ todo → c.dest (off + j) = none →
      Step c s { s with host := .undefined }
  | finished {s : St K} {b p off : ℕ} {rest : List Op} : b < numBatches →
      s.queue b = .kernel p off [] :: rest → Step c s { s with queue := Function.update s.queue b rest }

/-- The start of a call, after the synchronization of the default stream (249); the streams have nothing to do,
since the last call has waited for them.  The buffers hold anything. -/
def start (pinned gpu out : ℕ → K) : St K := ⟨pinned, gpu, out, fun _ => [], .batch 0 0⟩

/-- The states a call goes through. -/
def Reach (c : Call K) (pinned gpu out : ℕ → K) : St K → Prop :=
  Relation.ReflTransGen (Step c) (start pinned gpu out)

/-! ## Accesses -/

/-- Memory of the host and of the device. -/
inductive Place where
  | user (i : ℕ)
  | pinned (i : ℕ)
  | gpu (i : ℕ)
  | out (i : ℕ)
  deriving DecidableEq

/-- What a transfer reads. -/
def Src.cell (src : Src) (j : ℕ) : Place :=
  match src with
  | .pinned p => .pinned (p + j)
  | .user p => .user (p + j)

/-- The accesses that may take place now: `(who, j)` reads or writes (`true`) a number; `who` is a stream or
the host (`numBatches`), `j` the element of the copy or the thread. -/
inductive Access (c : Call K) (s : St K) : ℕ → ℕ → Bool → Place → Prop where
  | hostRead {off b j : ℕ} {todo : List ℕ} : s.host = .copy off b todo → j ∈ todo →
      Access c s numBatches j false (.user (off + j))
  | hostWrite {off b j : ℕ} {todo : List ℕ} : s.host = .copy off b todo → j ∈ todo →
      Access c s numBatches j true (.pinned (c.slot b + j))
  | memcpyRead {b d j : ℕ} {src : Src} {todo : List ℕ} {rest : List Op} : b < numBatches →
      s.queue b = .memcpy d src todo :: rest → j ∈ todo → Access c s b j false (src.cell j)
  | memcpyWrite {b d j : ℕ} {src : Src} {todo : List ℕ} {rest : List Op} : b < numBatches →
      s.queue b = .memcpy d src todo :: rest → j ∈ todo → Access c s b j true (.gpu (d + j))
  | kernelRead {b p off j : ℕ} {todo : List ℕ} {rest : List Op} : b < numBatches →
      s.queue b = .kernel p off todo :: rest → j ∈ todo → Access c s b j false (.gpu (p + j))
  | kernelWrite {b p off j q : ℕ} {todo : List ℕ} {rest : List Op} : b < numBatches →
      s.queue b = .kernel p off todo :: rest → j ∈ todo → c.dest (off + j) = some (some q) →
      Access c s b j true (.out q)

end Ceres.CrsView
