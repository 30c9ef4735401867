# Formal model of web-audio-api-rs: design and trusted base

## Trusted base

* The Lean 4.33.0 kernel. The axioms used are `propext`, `Classical.choice` and `Quot.sound`; the last section lists for
  every theorem of the manifest which of them it depends on. No own axioms, no `sorry`, no `native_decide`, no `bv_decide`.
* Definitions and lemmas of Mathlib that occur in the statements (ordered fields, floor, `Real.sin`, `Real.rpow`, lists).
* The manual transcription of the Rust source in `/repo` to Lean definitions. Every definition cites the lines it models.
  The code was not executed; there is no mechanical link between the Rust text and the definitions.
* The specifications: the Lean statements say what the English statements in `properties.jsonl` mean.

Conventions of the model:

* Samples, times and parameter values are elements of an arbitrary ordered field (exact arithmetic), of ℚ for concrete
  witnesses and of ℝ where `sin`, `exp` or powers matter. Rounding is modelled where it changes the answer
  (`Verif/Float`: rounding to nearest even with 53 or 24 bits, unbounded exponent), and in theorems that bound its effect for any
  rounding of a given relative error (`Near` in `Verif/Float/Error`). Overflow and subnormal numbers are not
  modelled. `NaN` is an explicit value where the code can produce it or tests for it.
* `usize`/`u64` counters are unbounded naturals (no wrap-around), except where said.
* A panic is an explicit error value of the model (`none`, `panic`, `false`).
* Concurrency: arbitrary interleavings of atomic steps. Channels (crossbeam, std::mpsc) are FIFO and lossless when not full.
  Relaxed atomics are modelled as such for the analyser only; elsewhere single locations are used, for which coherence is
  enough, or the theorem says that all threads see one order.
* `Vec::with_capacity(n)` gives a capacity of exactly `n` where the code relies on it (C17, C37, C45); std promises at least
  `n`. `slice::binary_search`, `sort_by`, `swap_remove` follow the documentation of std.
* Crates outside the repository are replaced by what they document: `fft_convolver` is an exact convolution, `almost` is a
  parameter (exact equality for C62), `arc-swap` and `crossbeam` are atomic cells and FIFO queues.

## Not modelled

* The audio drivers themselves (crates cpal and cubeb), threads of the OS, performance and real-time safety.
* The file readers and decoders themselves (symphonia, creek), the FFT itself, the convolution inside the crate `hrtf`, oversampling of the wave shaper (rubato).
* Memory reclamation of processors (garbage collector thread), logging, debug output.
* Whatever is listed as a simplification in the areas below.

## Layout

`lean/Verif/<Area>/*Model.lean` holds the models, `*Proofs.lean` helper lemmas, `*Props.lean` the property theorems with
their non-vacuity examples (small areas have all of it in one file). A theorem `Cnn_…` belongs to property `Cnn`;
`…_partial` proves part of it and says what is missing; `…_negated…` proves that the code violates it, with a witness.
`seeded/LOG.jsonl` records the mutations of the model and the theorems that noticed them.

## Areas

The comments at the head of the model files, which state what is modelled and where it is simplified:

- `Analyser/Freq.lean` (C68, C69: frequency data of the analyser): Models `generate_blackman`, `Analyser::set_fft_size`, `compute_fft`, `get_float_frequency_data`, `get_byte_frequency_data` and `get_byte_time_domain_data` (`/repo/src/analysis.rs` l.13-25, l.205-401) over the reals. The Fourier transform of the crate `realfft` is the exact one. `w n` is sample `n` of the most recent `fftSize` samples (C36 is about the ring they come from); `none` is NaN or infinity, which a Fourier transform spreads over all bins.
- `Analyser/FreqProps.lean` (C68, C69: theorems about the frequency data of the analyser): The model is in `Analyser/Freq.lean` (`/repo/src/analysis.rs` l.13-25, l.205-401).
- `Analyser/Model.lean` (Model of the ring of the analyser): Models `AnalyserRingBuffer::write` and `read` (`/repo/src/analysis.rs` l.75-127) and the renderer of the analyser (`/repo/src/node/analyser.rs` l.265-291) running on two threads. Memory: every slot of the ring is an `AtomicF32` accessed with `Relaxed`: it has a modification order, a load may return any value in it that is not older than the newest value that happens before the load. The index is accessed with `SeqCst`: a load returns the last stored value, and everything stored before that index happens before what follows the load. `view` remembers how much of every slot happens before the published index.
- `Attr/Model.lean` (Attributes of nodes): The attributes of a node are kept twice: in the node, where the getters read them, and in the renderer. A setter checks its argument, changes the node and posts a message to the renderer (`post_message`, `/repo/src/context/concrete_base.rs`), which the render thread hands to `onmessage` between quanta. Messages of a node arrive in order (C19). `process` does not change attributes (the panner takes out `hrtf_state` and puts it back, panner.rs l.714, l.900). Modelled: oscillator, buffer source, wave shaper, convolver, panner and biquad filter. Not modelled: messages that are lost or overtaken in a connection race (C19), what the attributes do (C34, C39, C43, C44, C46, C63–C67).
- `Buffer/Model.lean` (Model of `AudioBuffer`): Models `/repo/src/buffer.rs` l.67-363 as values: a buffer is a list of channels and a sample rate. The sharing of the channel data between clones is modelled separately in `Verif/Buffer/Share.lean`. A result `none` is a panic. `V` is the type of samples and `K` the type of sample rates.
- `Buffer/Share.lean` (C48: cloned `AudioBuffer`s are isolated): Models the sharing of channel data between `AudioBuffer`s: `ChannelData`, `/repo/src/buffer.rs` l.366-419, is an `Arc<Vec<f32>>` that is cloned by reference and written through `Arc::make_mut`. Memory is a function from addresses to vectors of samples. A buffer is a list of addresses, one per channel; different channels may share an address (`AudioBuffer::new`, l.86-91, clones one silent channel). `Arc::strong_count` is the number of channels that have the address. `Arc::new` yields an address that is not in use. An operation is atomic: buffers may be owned by several threads, but an `Arc` that is unique cannot be cloned by somebody else while its owner writes (`&mut`), so that operations on different threads take effect one after the other. The primitive operations are those on a single channel. `copy_to_channel_with_offset` (l.197-214) and `get_channel_data_mut` (l.235-238) are a `write`, `extend` (l.277-288) is a `write` of every channel, `split_off` (l.291-300) is a `write` of every channel followed by `from`, `resample` (l.353-358) is an `assign` of every channel.
- `Buffer/Stream.lean` (Model of the stream re-chunker and of the media stream renderer): `/repo/src/resampling.rs` l.43-111 and `MediaStreamRenderer`, `/repo/src/node/mod.rs` l.60-112. The input iterator is the list of the chunks it still delivers; `none` is an error. It stays at the end once the end is reached. The outer `Option` of every result is a panic.
- `Buffer/Track.lean` (C50: a media stream track and its consumers): Models `MediaStreamTrack` and `MediaStreamTrackIter`, `/repo/src/media_streams/mod.rs` l.45-124. A track hands the chunks of its provider to any number of iterators; it keeps the latest chunk only. A call of `next` is atomic in the model: iterators that are polled from different threads at the same time are not covered. `α` is the type of chunks (a buffer or an error).
- `Buffer/TrackRace.lean` (C50: consumers on different threads): `MediaStreamTrackIter::next` (`/repo/src/media_streams/mod.rs` l.98-123) in steps, one per access to the shared state: two media stream nodes of different contexts may poll the same track at the same time. The guard of the mutex lives until the end of the `match` (l.105-113), so that fetching a chunk and publishing it is one step. Steps of all threads are interleaved in one order.
- `Capacity/Model.lean` (C74: collection of the render capacity): Models `AudioRenderCapacity::start` and `stop`, `/repo/src/capacity.rs` l.95-138, as a transition system: threads that call `start` and `stop` (number 0 is the event thread, whose handlers may call them), collector threads, the event queue with its event thread, the render callbacks and the clock. Of the statistics only the number of callbacks is kept here, the values of an event are in `Stats` (C47). Simplifications: in `start`, storing the sender, taking the snapshot and spawning the thread are one step; the event queue holds capacity events only.
- `Capacity/Props.lean` (C74: theorems about the collection of the render capacity): The model is in `Capacity/Model.lean` (`/repo/src/capacity.rs`).
- `Compressor/Gain.lean` (Dynamics compressor: gains): The gains of `DynamicsCompressorRenderer::process` (`/repo/src/node/dynamics_compressor.rs` l.351-450) over the reals; no rounding, no NaN.
- `Compressor/Model.lean` (Dynamics compressor: delay line): Models the delay line of `DynamicsCompressorRenderer::process` (`/repo/src/node/dynamics_compressor.rs` l.331-478). The computation of the gains is a parameter `G`: from the state of the detector and the input, the next state and the 128 gains (see `Verif.Compressor.Gain` for the one of the code). `R` is `ring_buffer.capacity()`; std only promises that it is at least the requested size, here it is that size.
- `Control/SendModel.lean` (Model of sending control messages): Models `ConcreteBaseAudioContext::{send_control_msg, suspend_control_msgs, resume_control_msgs}` (`/repo/src/context/concrete_base.rs` l.276-320) as called by several control threads. Atomic steps are: reading and changing `suspended_messages` (under its mutex), and sending one message to the channel. Between the two, other threads may run; the `render_channel` lock is only read-locked and does not exclude them. The channel is FIFO (crossbeam), so the list of messages sent is the order in which the render thread processes them. The check `state() != Closed` is not modelled here (see `Verif.Control.State`): the context is not closed.
- `Control/SinkProps.lean` (C56: `set_sink_id_sync` and the lock of the control message sender): Models the locking of `render_channel: RwLock<Sender>` by `set_sink_id_sync` (`/repo/src/context/online.rs` l.386-388 takes the write lock and keeps it until the function returns, l.440-443 sends the cached messages with `send_control_msg`) and by `send_control_msg` (`/repo/src/context/concrete_base.rs` l.278, read lock). `std::sync::RwLock` is not reentrant: a thread that holds the write lock and asks for a read lock blocks (or panics).
- `Control/StateModel.lean` (Model of the life cycle of an `AudioContext`): Models the part of `AudioContext::{suspend, resume, close}` and their `_sync` variants up to the point where they wait for the render thread (`/repo/src/context/online.rs` l.523-542, l.569-591, l.610-635, l.662-682, l.710-730, l.749-775), the buffering of messages (`concrete_base.rs` l.276-320), and the processing of the messages by the render thread with its effect on the state (`/repo/src/render/thread.rs` l.186-227). Each of these parts is taken as one atomic step. Other control messages do not influence the state and are `other`. The audio backend is not modelled.
- `Convolver/Model.lean` (Convolver): Models `ConvolverRenderer` (`/repo/src/node/convolver.rs` l.330-509) and `ConvolverNode::set_buffer` (l.259-317). The crate `fft_convolver` is not part of the repository: `Engine` is what its documentation promises, a causal convolution of all the samples that it was fed, computed exactly. `N` is the number of frames of a quantum.
- `Convolver/Normalize.lean` (C61: equal-power normalisation of the impulse response): `normalize_buffer` (`/repo/src/node/convolver.rs` l.16-53) over the reals: no overflow, no NaN. For a buffer without samples the code gets NaN from `0 / 0` and takes the minimal power; here `0 / 0 = 0` is below the minimal power, to the same effect.
- `Cow/Model.lean` (Model of the copy-on-write channel buffers and their pool): Models `/repo/src/render/quantum.rs` l.11-160: `Alloc`, `AllocInner`, `AudioRenderQuantumChannel`. Memory is a function from addresses to buffer contents `V` (all 128 samples). `Rc::strong_count` is the number of owners of an address: channel handles, entries of the pool and, for the buffer of zeroes (address 0), the allocator. Handles are named by numbers. `Rc::new` yields an address that was never used before (buffers are freed only together with the allocator, so that no address is used twice).
- `Create/Model.lean` (Model of the creation of nodes with their parameters): Models the constructors of the nodes with parameters (citations below), `create_audio_param` (`/repo/src/context/base.rs` l.320-337), `audio_param_pair` (`/repo/src/param.rs` l.1603-1654), `AudioParam::{set_value, set_automation_rate}` (l.348-404) and the messages that `register` and `queue_audio_param_connect` send (`/repo/src/context/concrete_base.rs` l.232-270, l.426-440, l.461-471). Not modelled: the fields of the nodes other than their parameters, the checks of channel counts (C51). Numbers are exact; values that are not finite are kept apart (`Fl`).
- `Decode/Model.lean` (Model of the decoding of audio files): Models `decode_media_data` and `MediaDecoder::next` (`/repo/src/decoding.rs` l.15-53, l.191-271). The format reader and the decoder of the crate `symphonia` are replaced by the list of what they return, in the order of the calls: any list is allowed. What the probing of the format (`try_new`) does is not modelled, nor the verification of checksums, whose result is only logged (l.211-214).
- `Delay/Echo.lean` (Echoes: a delay node in a feedback loop): The loop that applications build: an input and the output of the delay, times a gain, are summed at the input of the delay. The loop contains both processors of the delay node (`/repo/src/node/delay.rs` l.283-743), a gain node and the summing of connections; the graph cuts the loop between the writer and the reader and processes the reader, the gain and the writer in this order (`/repo/src/render/graph.rs` l.331-487; see the example at the end). Simplifications: exact arithmetic; the gain is the factor that the gain node applies to a frame (C40); input and loop have the same number of channels.
- `Delay/Model.lean` (Model of the delay node): Models `DelayWriter` and `DelayReader` (`/repo/src/node/delay.rs` l.283-743): the two processors that share a ring of quanta. A quantum is a function from frame numbers to frames, a frame has one sample per channel. Samples and times are elements of an ordered field, computed with exactly; `is_normal` is "not zero". `N` is `RENDER_QUANTUM_SIZE`. The ring has any capacity (`Vec::with_capacity(n)` gives at least `n`). It is filled with silence when it is used first (l.386-398); the model starts with the filled ring. The channel mixing is the one of `Verif.Mix`. Index out of bounds: `none`.
- `Engine/DelaySum.lean` (C102: graphs with delay nodes): Sources do not influence each other either if the graph contains delay nodes (`/repo/src/node/delay.rs` l.283-743, `Verif.Engine.Delays`), also in cycles, in mode `explicit`.
- `Engine/Delays.lean` (C101: graphs with delay nodes): An engine of nodes without shared memory (`Verif.Engine.Model`, `Verif.Engine.More`) and the two halves of delay nodes (`/repo/src/node/delay.rs` l.283-743, `Verif.Delay.Model`), which are two nodes of the graph that share a ring of quanta. The writer is a cycle breaker, so that the graph may contain loops with delays in them. Simplification: the shared memory contains the private fields of the two processors too; each delay node has its own number `key`, by which its processors find their memory. The delay times are those that the parameter will have in each quantum.
- `Engine/Frames.lean` (Summing of connections in the engine, frame by frame): `AudioRenderQuantum::add` (`/repo/src/render/quantum.rs` l.532-569) on signals whose channels do not share buffers is: mix both to the new number of channels, add.
- `Engine/Linear.lean` (The nodes of the engine are linear): Sample by sample, for signals of a fixed number of channels which may also be silent: gain (`/repo/src/node/gain.rs`), IIR filter (`/repo/src/node/iir_filter.rs`), splitter, merger, and the summing of connections.
- `Engine/Model.lean` (The graph with actual nodes and actual mixing): Puts together the models of the graph (`Verif.Graph.RenderModel`, `/repo/src/render/graph.rs`), of the summing of connections (`Verif.Mix.Model`, `/repo/src/render/quantum.rs`) and of processors (`Verif.Node`, `Verif.Filter`): an instance of `Verif.Render.Sem`. Simplifications: exact arithmetic. Parameters are not nodes of the graph: a gain node carries the values its parameter will have in each quantum, which therefore do not depend on audio signals. Sources carry the quanta they will play. Only silent channels share a buffer (in the code a merger, an up-mix or a gain of one can yield a quantum in which channels share a buffer; this matters only for the shortcut of `add` for identical channels, see `C13_negated_fast_path`). Delays are added in `Verif.Engine.Delays` (their two halves share memory).
- `Engine/Modulation.lean` (C107: modulation of a parameter): The graph (`Verif.Graph.RenderModel`) with parameters as nodes: sources, AudioParams (`AudioParamProcessor`, `/repo/src/param.rs` l.686-797) and gain nodes that read a parameter (`/repo/src/node/gain.rs` l.144-199). Simplifications: exact arithmetic. The automation values of a parameter (`compute_intrinsic_values`, the subject of C24-C31) are given for every quantum. As in `Verif.Engine.Model` only silent channels share a buffer.
- `Engine/MoreLinear.lean` (Biquad filter, stereo panner and convolver are linear): As `Verif.Engine.Linear`, for the further nodes of `Verif.Engine.More`: biquad filter (`/repo/src/node/biquad_filter.rs`), stereo panner (`/repo/src/node/stereo_panner.rs`), convolver (`/repo/src/node/convolver.rs`).
- `Engine/Spatial.lean` (C101, C102: graphs with panner nodes): An engine of nodes (`Verif.Engine.Model`, `Verif.Engine.More`) and the panner node (`/repo/src/node/panner.rs` l.667-904, `Verif.Panner.Process`), with and without delay nodes and feedback. The parameters of a panner and of the listener are those that they will have in each quantum. Panner nodes have settings for which the gain is not NaN (`Tame`). Simplifications: the panning model is not changed while the node exists; for the panning model `HRTF` the convolution of the crate `hrtf` is an arbitrary machine `H`, which is assumed to be homogeneous (`Homog`).
- `Events/Late.lean` (C85: events and answers that come late): Models the way of an event from the processor of a node to the handler that is registered under the id of the node, and of the answer to an `audioprocess` event back to the processor, together with the reuse of ids: `register` (`/repo/src/context/concrete_base.rs` l.232-270), `AudioNodeIdProvider::get` (l.40-46), `mark_node_dropped` (l.330-347), the removal of nodes (`/repo/src/render/graph.rs` l.552-575), `route_message` (l.322-324), the events (`/repo/src/render/processor.rs` l.53-75), `EventLoop::handle_event` (`/repo/src/events.rs` l.188-224), `AudioProcessingEvent::drop` (l.62-72) and `ScriptProcessorNode::set_onaudioprocess` (`/repo/src/node/script_processor.rs` l.146-167). One `Op` is one atomic step of a control thread, the render thread or the event thread. Ghost data: `tag` is the serial number of a node, which is never reused. Saturated channels are the subject of C80 and left out here.
- `Events/Model.lean` (Model of the event loop): Models `EventLoop::{handle_event, set_handler, clear_handler}` (`/repo/src/events.rs` l.188-224, l.261-267). Keys are `EventType` (kind and node id). Handlers are identified by a number (one per registration). While a callback runs the handlers are not locked: the callback itself, and other threads, may set and clear handlers, which is the `body` of an event. Payloads and the termination of the loop are not modelled.
- `Events/Offline.lean` (Model of the events of an offline rendering, and C81): Models the part of `OfflineAudioContext::start_rendering_sync` (`/repo/src/context/offline.rs` l.156-187) and `RenderThread::render_audiobuffer_sync` (`/repo/src/render/thread.rs` l.260-302) that raises and handles events, with `EventLoop::handle_pending_events` (`/repo/src/events.rs` l.226-237), `ConcreteBaseAudioContext::set_state` (`/repo/src/context/concrete_base.rs` l.393-401) and the wrapper of the suspend callbacks (`/repo/src/context/offline.rs` l.378-382). The channel is unbounded (offline.rs l.98-100), so `send` and `try_send` always succeed. What the graph does is a function of the history (`World`): which events rendering a quantum and the destructors raise, and which control messages callbacks send. Control messages are numbers. Callbacks do not panic and do not raise events. Messages of other threads are not modelled. The asynchronous variant (l.189-227, thread.rs l.309-352) has the same sequence of calls; its suspensions are in `Verif.Events.Suspend`.
- `Events/Queue.lean` (Model of the delivery of events): Models the channel between the threads that raise events and the event thread of an online context: `EventDispatch` (`/repo/src/events.rs` l.98-164), `EventLoop::{handle_event, run_in_thread}` (l.188-224, l.238-255), the channel (`/repo/src/io/mod.rs` l.124-127), the senders in `/repo/src/render/processor.rs` (l.45-103), `/repo/src/render/thread.rs` (l.207-215, l.534-539) and `/repo/src/context/concrete_base.rs` (l.322-324, l.393-401). The handlers themselves are in `Verif.Events.Model`. Here a handler is what it does to the channel: the events it raises by blocking calls (`set_sink_id` raises `sinkchange`, online.rs l.449; `close` of a suspended context raises `statechange`, online.rs l.634, l.774), and whether it panics. The channel is a linearizable queue. The receiver lives as long as a context handle, so `send` never fails: it waits.
- `Events/Suspend.lean` (Model of asynchronous suspension of an offline context, and C82): Models `OfflineAudioContext::{start_rendering, suspend, resume}` (`/repo/src/context/offline.rs` l.198-230, l.294-320, l.394-397), `RenderThread::render_audiobuffer` (`/repo/src/render/thread.rs` l.309-352) and `ConcreteBaseAudioContext::set_state` (`/repo/src/context/concrete_base.rs` l.393-401), as steps of the three kinds of futures: the rendering, the promises of `suspend`, and the calls of `resume`. The channel of `resume` is `futures::channel::mpsc::channel(0)` with a fresh clone of the sender for every call, so every call deposits its token at once (each sender has a slot of its own) and then waits; a token stays until the renderer takes it. When the renderer is gone the deposit fails and `unwrap` panics. The quanta of the suspensions are given; how they are computed is in `Verif.Thread.OfflineModel`. Promises that are dropped are not modelled here (`C18_negated_dropped`). Waiting for `num_frames` quanta to go and the quantum after a suspension are one step.
- `Filter/BiquadModel.lean` (Model of the biquad filter): Models the coefficients, the frequency response and the recursion of `/repo/src/node/biquad_filter.rs` (l.18-373, l.670-742, l.765-899) over the reals: rounding, and the flushing of subnormal, infinite and undefined values to zero (l.881-883), are not modelled here (see `Verif.Nan`), `is_normal` of l.784 is "not zero".
- `Filter/IirModel.lean` (Model of the IIR filter): Models `IirFilterRenderer::new` and `process` (`/repo/src/node/iir_filter.rs` l.282-413) in exact arithmetic: `f64` rounding, the conversion to `f32` and the flushing of subnormal, infinite and undefined values to zero (l.393-395) are not modelled here (see `Verif.Nan`), `is_normal` of l.343 is "not zero". `N` is the number of frames.
- `Filter/Response.lean` (C83: `get_frequency_response` of the filters): Models `IIRFilterNode::get_frequency_response` (`/repo/src/node/iir_filter.rs` l.221-265) and `BiquadFilterNode::get_frequency_response` (`/repo/src/node/biquad_filter.rs` l.670-742) in exact arithmetic, `None` for NaN. The property relates it to what the filters do to a sine.
- `Graph/AnyOrder.lean` (The sound does not depend on the order in which connections were made (C98)): The render thread keeps the outgoing connections of a node in the order in which they were made and the nodes in an order found by a depth first search over these lists (`/repo/src/render/graph.rs` l.269-280, l.418-487). Both orders are an accident of the history. Here: two graphs with the same nodes and the same connections, whatever the orders, sound the same. Two steps of the loop over the nodes (graph.rs l.500-575) commute when there is no connection between the two nodes (`swap`); any two orders that respect the connections are related by such exchanges (`orders`).
- `Graph/Equations.lean` (C111: rendering solves the equations of the graph): What a graph without cycles means, without any order of processing: in every quantum each node applies its processor to the sum of what its predecessors put out in the same quantum. These equations have exactly one solution, and the loop of `Graph::render` (`/repo/src/render/graph.rs` l.490-591, model `RGraph.render`) computes it.
- `Graph/Hom.lean` (Translations of processors and signals): A translation `Hom sem' sem` maps processors, signals and messages so that it does not matter whether one first lets a processor work (sums signals, handles a message) and then translates, or the other way round. The theorems of this file: then it does not matter either for whole histories of the system (`Verif.Graph.SystemModel`): all operations of the graph (`/repo/src/render/graph.rs`) treat processors and signals as black boxes.
- `Graph/HomOn.lean` (Translations that are correct under an invariant): As `Verif.Graph.Hom`, but the translation only has to commute with processing where an invariant of processors, inputs and outputs holds, and it need not preserve the tail times of processors. In return the histories must not drop handles and not change channel configurations (graph: `/repo/src/render/graph.rs`; the tail time matters for dropped nodes only, l.87-115).
- `Graph/OrderModel.lean` (Model of the topological ordering of the render graph): Models `/repo/src/render/graph.rs` lines 326-487 (`Graph::visit`, `Graph::order_nodes`). Simplifications: node ids are natural numbers, a node is reduced to the list of target ids of its outgoing edges (in order, duplicates kept, AudioParam edges included - the Rust DFS follows all of them) and its cycle breaker flag. `RefCell` borrows are not modelled here (the DFS only reads).
- `Graph/ParamFlow.lean` (C107: parameters are read in the quantum they belong to): An AudioParam is a node of the graph, connected to its owner by an edge without port (`/repo/src/context/concrete_base.rs`, `/repo/src/param.rs` l.1606-1660). The owner does not receive its signal through an input but reads its output buffer while it is processed (`AudioParamValues::get`, `/repo/src/render/processor.rs` l.186-200; `Node::get_buffer`, graph.rs l.118-120). The theorem says which buffer it finds there, for processors of any kind.
- `Graph/Release.lean` (Nodes whose handles have been dropped are released (C104)): `Graph::render` (`/repo/src/render/graph.rs` l.490-591) takes a node out of the graph when `Node::can_free` (l.87-115) says so. C06 says that this never happens too early; here it is shown that it happens: a part of the graph whose handles have been dropped is gone after finitely many quanta, whatever the rest of the application does.
- `Graph/RenderModel.lean` (Model of the render graph: node store, structural operations, rendering of one quantum): Models `/repo/src/render/graph.rs` l.44-320 and l.489-591 and `/repo/src/render/node_collection.rs`. The processors are abstract: `Sem` gives an arbitrary (state dependent, possibly panicking) behaviour for `AudioProcessor::process`, `onmessage` and `has_side_effects`, and an arbitrary signal type with the operation `AudioRenderQuantum::add`. Everything proved here therefore holds for all processors. Uncaught panics of the render thread are `none`.
- `Graph/Shared.lean` (Processors that share memory): The graph of `Verif.Graph.RenderModel` for processors that share memory with each other (`Rc<RefCell<…>>`), as the two halves of a delay node do (`/repo/src/node/delay.rs` l.305-317): `W` is the state of all shared memory of the render thread. Between two processors the graph is that of `RGraph.renderNode`; what a processor does depends on the memory, and it changes the memory.
- `Graph/SharedTrio.lean` (Three renderings side by side, with shared memory): `Verif.Graph.HomOn` and `Verif.Graph.Trio` for processors that share memory (`Verif.Graph.Shared`; `/repo/src/render/graph.rs` l.490-591): a relation between three renderings that is kept by processing, summing, messages and the memory holds for the sounds of three histories.
- `Graph/SystemModel.lean` (Model of the control thread(s), the message channel and the render thread): Models the life cycle administration of `/repo/src/context/concrete_base.rs` (id provider l.26-47, `register` l.232-270, `mark_node_dropped` l.330-347, `connect` l.443-456, `queue_audio_param_connect` l.461-471, `disconnect` l.474-508, `connect_listener_to_panner` l.511-513), the FIFO control message channel, and `RenderThread::handle_control_message` (`/repo/src/render/thread.rs` l.136-252; the messages that concern the graph). One `Op` is one atomic step of a control thread (under the mutex / channel operation it performs) or of the render thread (receive one message, render one quantum). A list of ops is an arbitrary interleaving of any number of control threads with the render thread. `none` means that the render thread has panicked. Ghost data (not in the code, no influence on the behaviour): serial numbers `tag` of handles, which messages carry to express for which node they were meant.
- `Graph/Trio.lean` (Three renderings side by side): Three histories of the system (`Verif.Graph.SystemModel`) with the same graph operations but different processors and messages. If a relation between three processors, inputs and outputs is kept by processing, summing and messages, it holds for the sounds of the three histories. (`/repo/src/render/graph.rs` treats processors and signals as black boxes.)
- `Graph/Wiring.lean` (C84: the public `connect` and `disconnect` methods): Models the methods of the trait `AudioNode` (`/repo/src/node/audio_node.rs` l.247-402), their overrides for the delay, which consists of two nodes of the engine (`/repo/src/node/delay.rs` l.113-275, l.364-371), and the administration of connections (`/repo/src/context/concrete_base.rs` l.330-347, l.443-456, l.474-534), for any number of contexts. The specification knows objects and wires between them. Ids of nodes may be reused after the object is gone; that an id is not given to two objects that are alive is the hypothesis of `create` (it is proved in the model of the life cycle, C06-C09). Dropping an object is one step (see C11 for the race of a drop).
- `Io/Config.lean` (C79: configuration of streams): Models `buffer_size_for_latency_category` (`/repo/src/io/mod.rs` l.260-286) and the choice of sample rate, channel count and buffer size in `build_output` and `build_input` of `/repo/src/io/cpal.rs` (l.200-383, l.385-519), `/repo/src/io/cubeb.rs` (l.301-441) and `/repo/src/io/none.rs` (l.78-128), with what `AudioContext::try_new` and `set_sink_id_sync` make of it (`/repo/src/context/online.rs` l.233-302, l.420-428). A device is given by its default configuration and by a predicate that says which configurations it accepts. Sample rates are rationals; `rate as u32` is the floor and `rate as f32` of a rate is exact (true below 2^24). The product `latency * sample_rate` is exact. `usize` has 64 bits. The special case for Android is left out.
- `Io/Devices.lean` (C78: ids of audio devices): Models the enumeration of devices and the choice of a device by its id: `stable_device_id`, `cpal_device_for_id`, `enumerate_devices_sync` (`/repo/src/io/cpal.rs` l.109-186, l.564-624), the same functions of `/repo/src/io/cubeb.rs` (l.229-249, l.598-700), `DeviceId::as_string`, `is_valid_device_id` and `try_get_user_media_sync` (`/repo/src/media_devices/mod.rs` l.38-66, l.178-187, l.232-246), and `is_valid_sink_id` (`/repo/src/context/online.rs` l.26-35) with its uses in `try_new` and `set_sink_id_sync`. The hash of `DeviceId::as_string` is an arbitrary function `h`; the name of the host is constant. The ids are decimal numbers, hence different from `""` and `"none"`. What the operating system lists does not change between the enumeration and the use of an id, except where a theorem says so. A device of the crate `cubeb` without a name and one of the crate `cpal` without a description are the same in the model, as are the default configuration of `cpal` and the channel count of `cubeb` (whose failure is an error; here it is a device that is left out, as in `cpal`).
- `Io/Microphone.lean` (C77: microphone input): Models `MicrophoneRender::render` and `MicrophoneStream::next` (`/repo/src/io/microphone.rs` l.37-67, l.85-103) with the channel of capacity 3 between them (`/repo/src/io/cpal.rs` l.458-460, `/repo/src/io/cubeb.rs` l.487-488). The conversion of the sample format of the device is a function `conv`. The device calls `render` with interleaved samples of any length, at any moment; the consumer (the media stream track of C50) calls `next` at any moment.
- `Io/NoneBackend.lean` (C76: rendering without an audio device): Models the thread of the backend for sink id `"none"` (`/repo/src/io/none.rs` l.38-75, l.146-186) together with the parts of the context that decide what it is told: the state that the render thread publishes (`/repo/src/render/thread.rs` l.191-198, l.216-225), `resume`/`suspend` (`/repo/src/context/online.rs` l.523-600) and `Drop for AudioContext` (`/repo/src/context/online.rs` l.164-173). The model is a transition system. Time is an element of an ordered field; it passes in steps of any size at any moment, so that the thread may be delayed arbitrarily by the operating system or by its own rendering. `recv_deadline` (crate `crossbeam`) returns a message if there is one, even after the deadline; without a message it fails when the deadline is over, or at once if there are no senders any more. A call of `render` fills one render quantum. Closing of the context is represented by its message to the thread only.
- `Media/Destination.lean` (C71: the stream of a `MediaStreamAudioDestinationNode`): Models `/repo/src/node/media_stream_destination.rs` l.84-159: a channel of capacity one between the render thread and the reader of the stream. The render thread removes an unread buffer (`try_recv`) and then sends the new one; the reader can run in between. The reader is the provider of a track, so there is one at a time (`Buffer/Track.lean`). A buffer is the list of the channels of the input (l.131-132).
- `Media/Element.lean` (C73: playback of a media element): Models `/repo/src/media_element.rs` l.92-224. The file reader (crate `creek`) is not part of the repository: it is a type `δ` of states with a function to read and one to seek, and `File` says what is assumed about it where sound is concerned. A frame is one sample of every channel (type `α`), so the rearrangement l.200-202 is not modelled. Numbers are rationals: rates and times that are infinite or NaN are not covered. What the chunks become in the graph is in `Buffer/Stream.lean` (C50).
- `Media/Recorder.lean` (C72: recording a media stream): Models `MediaRecorder` (`/repo/src/media_recorder/mod.rs` l.62-131, l.252-302): control thread and recorder threads in small steps, with the track of `Buffer/Track.lean`. A chunk `b : β` is encoded as the bytes `enc b`, the file header for it is `hdr b`. `flush` holds the lock of the data while it runs, so it is one step; `stop` (the flag and the callback) is one step; a thread can stop anywhere in between. The recorder records the first track only. Timecodes are not modelled. Callbacks are recorded as events; those that call the recorder again are in `Media/RecorderProps.lean`, `Lock`.
- `Media/RecorderProps.lean` (C72: theorems about the recorder): The model is in `Media/Recorder.lean` (`/repo/src/media_recorder/mod.rs`). The encoding of a chunk, `encode_next`, l.52-59, is `Wav.enc` below; the header is abstract.
- `Mix/Model.lean` (Model of `AudioRenderQuantum`: mixing and summing): Models `/repo/src/render/quantum.rs` l.90-126 and l.162-590. Samples are elements of a field `K` (exact arithmetic); `r` stands for `(0.5_f32).sqrt()`. A channel is a shared buffer: its address `ptr` and its contents. Address 0 is the shared buffer of zeroes (`AllocInner::zeroes`). Writing to a channel yields a buffer with an address different from all others (either it was not shared, or it is copied first, `make_mut` l.96-104; that this value level view is adequate is proved in `Verif/Cow`), taken from the supply `next`.
- `Mix/Rounding.lean` (Mixing with rounding): `AudioRenderQuantum::add` and `mix` (`/repo/src/render/quantum.rs` l.113-120, l.274-505, l.532-569) with a rounding after every operation on samples, as in `f32`; `mul_add` rounds once. `r` is the rounded value of sqrt(0.5). Otherwise as `Verif.Mix.Model`.
- `Nan/Compressor.lean` (C94: the compressor and samples that are not finite): The gains and the delay line of `DynamicsCompressorRenderer::process` (`/repo/src/node/dynamics_compressor.rs` l.331-478) on numbers with NaN and infinities. Finite values are real numbers (no rounding, no overflow). The params are finite and in their ranges.
- `Nan/Model.lean` (Filters and samples that are not finite): Models the recursions of the IIR filter and the biquad filter (`/repo/src/node/iir_filter.rs` l.323-413, `/repo/src/node/biquad_filter.rs` l.766-900) on floating point numbers with NaN and infinities, including the flushing of values that are not normal. Finite numbers are exact (no rounding, no overflow, one zero); `t` is the smallest normal number. Coefficients are finite.
- `Node/Gain.lean` (C40: gain node): Models `GainRenderer::process` (`/repo/src/node/gain.rs` l.144-199) in exact arithmetic. `N` is the number of frames. The gain has one value for the quantum or one per frame.
- `Node/MergeSplit.lean` (C38: channel merger and channel splitter): Models `ChannelMergerRenderer::process` (`/repo/src/node/channel_merger.rs` l.146-171) and `ChannelSplitterRenderer::process` (`/repo/src/node/channel_splitter.rs` l.183-209). The mixing of the inputs to one channel (merger) and to the number of outputs (splitter) happens before, in the graph (C12, C13).
- `Node/Oversample.lean` (C92: wave shaper with oversampling): Models `WaveShaperRenderer::process` (`/repo/src/node/waveshaper.rs` l.384-487) with all three values of `oversample`. A resampler (crate rubato, `FftFixedInOut`) is an arbitrary machine for each channel that maps a chunk and its memory to a chunk and its new memory; nothing is known about the samples, only the length of the chunk matters.
- `Node/Quantum.lean` (Quanta with silent channels): Models the part of `AudioRenderQuantum` (`/repo/src/render/quantum.rs` l.179-262, l.511-516) that the nodes use. A channel either is the shared block of zeros (`none`; `is_silent` compares pointers, l.109-111) or has its own samples. `N` is the number of frames, 128 in the code.
- `Node/StereoPanner.lean` (C41: stereo panner): Models `get_stereo_gains` and `StereoPannerRenderer::process` (`/repo/src/node/stereo_panner.rs` l.74-79, l.219-317) over the reals: rounding, and the error of the `sin` of `f32`, are not modelled. `N` is the number of frames. The pan has one value for the quantum or one per frame.
- `Node/WaveShaper.lean` (C39: wave shaper): Models `apply_curve`, `onmessage` and the branches of `process` without oversampling (`/repo/src/node/waveshaper.rs` l.384-408, l.489-515, l.555-573) in exact arithmetic. The oversampled branches, which call the same `apply_curve`, are in `Oversample.lean`.
- `Panner/Gain.lean` (C63, C64: distance gain and cone gain of the panner): Models `PannerRenderer::dist_gain` and `cone_gain` (`/repo/src/node/panner.rs` l.926-986) over the reals. NaN, which arises from 0/0, is `none`; infinite distances and rounding are not modelled.
- `Panner/Geometry.lean` (C65: where the listener hears a source): Models `azimuth_and_elevation`, `distance` and `angle` (`/repo/src/spatial.rs` l.205-301) with the functions of the crate `vecmath` they use, over the reals: rounding is not modelled (in `f32` the argument of `acos` can exceed 1 by a rounding error, which gives NaN).
- `Panner/Process.lean` (C65, C66, C67: the rendering of the panner): Models `PannerRenderer::process` with `apply_mono_to_stereo_gain` and `apply_stereo_to_stereo_gain` (`/repo/src/node/panner.rs` l.686-904, l.988-1060) over the reals; a sample that is NaN is `none`. The HRTF convolution of the crate `hrtf` is an arbitrary state machine `Hrtf`. `N` is the number of frames, 128 in the code. Every parameter has one value for the quantum or one per frame (`cycle`, l.728-744).
- `Panner/Props.lean` (C65, C66, C67: what the panner puts out): The theorems about the model of `PannerRenderer::process` in `Panner/Process.lean` (`/repo/src/node/panner.rs` l.686-904).
- `Panner/Tail.lean` (C67: the tail of the HRTF panner): `tail_time_counter` (`/repo/src/node/panner.rs` l.697-711) over the life of a panner. The counter is never set back.
- `Param/ExpProps.lean` (C58: exponential ramps are exact): The formula of the code (`compute_exponential_ramp_sample`, param.rs l.79-88) in real arithmetic: `powf` is the real power.
- `Param/Model.lean` (Model of `AudioParam` automation): Models `/repo/src/param.rs` l.63-264 (formulas, timeline), l.403-636 (scheduling methods) and l.659-1600 (`AudioParamProcessor`). Times are elements `K` of an ordered field, computed with exactly (the code: `f64`). Values are elements of an arbitrary type `V` and the arithmetic on values is an arbitrary record `Arith` (the code: `f32` arithmetic, `exp`, `powf`), so theorems about the model for all `Arith` hold whatever the rounding of values. `exact` is the instance with exact arithmetic. `panic` stands for a panic on the render thread, `fuel` is an artefact of the model that is proved unreachable. `AudioParamEventTimeline::dirty` (l.183-264) is left out: every `push` is followed by a `sort` before the end of `handle_incoming_event`, so `peek` and `next` never see a dirty queue.
- `Param/NewProps.lean` (C26, C27, C58: parameters of new nodes): The constructor of a node sets the values of its parameters with `set_value` (for example `/repo/src/node/gain.rs` l.100-110), which leaves an event at time 0 in the timeline (`/repo/src/param.rs` l.403-425, l.995-1046). The application then schedules set value events and ramps, in any order, before rendering starts.
- `Param/OutputProps.lean` (C23: the values a processor sees are within the nominal range and not NaN): Models `AudioParamProcessor::mix_to_output` (param.rs l.739-797) and `AudioParamValues::get` (render/processor.rs l.186-200, l.227).
- `Param/RateProps.lean` (C115: a k-rate parameter has the value of its automation at the beginning of each quantum): `compute_buffer`, `/repo/src/param.rs` l.1506-1600: for a k-rate parameter the value of a quantum is the intrinsic value that the quantum before left (l.1543-1544).
- `Param/ValueProps.lean` (C89: what `AudioParam::value` returns): `value` (param.rs l.388-390) reads an atomic that is written by the control thread in `set_value_raw` (l.407-414) and by the render thread at the beginning of `compute_buffer` (l.1520-1523; `Proc.current` in the model). The comment at `value` promises the first sample of the last rendered quantum.
- `Script/Model.lean` (Model of the ScriptProcessorNode renderer): Models `ScriptProcessorRenderer::process` and `onmessage` (`/repo/src/node/script_processor.rs` l.191-274). A quantum is the list of its channels, a channel is the list of its `N` samples (`RENDER_QUANTUM_SIZE`). `n` is `number_of_quanta`, the capacity the input buffer was created with (l.100-103: `Vec::with_capacity(n)` is taken to have capacity `n` exactly). `k` is `number_of_output_channels`. Sample values are not interpreted.
- `Source/BufferModel.lean` (Model of the buffer source): Models `AudioBufferSourceNode` and `AudioBufferSourceRenderer` (`/repo/src/node/audio_buffer_source.rs` l.137-420 calls and messages, l.422-845 `process`, l.847-879 `onmessage`, `before_drop`). Times, rates and samples are elements of an ordered field with floor, computed with exactly (the code: `f64`, samples `f32`). `⊤` stands for `f64::MAX`. The tolerant comparisons of the crate `almost` are parameters of the model: the theorems hold for every such pair of predicates. A panic (index out of bounds) and a loop that never ends are explicit error values.
- `Source/Clock.lean` (Scheduled sources with rounded times): The constant source (`/repo/src/node/constant_source.rs` l.190-266) and the gate of the oscillator (`/repo/src/node/oscillator.rs` l.365-473, l.513-525: at which frames it is silent because of start and stop time) with the arithmetic of times as in the code: the time of a quantum is `frame / sample_rate` (`/repo/src/render/thread.rs` l.360, l.401, l.492), that of a frame is accumulated. All operations take a rounding `rd`, for `f64`: to 53 bits.
- `Source/ConstModel.lean` (Model of the constant source): Models `ConstantSourceNode` (start/stop, `/repo/src/node/constant_source.rs` l.101-128) and `ConstantSourceRenderer` (l.183-288: `process`, `onmessage`, `before_drop`). Times are elements of an ordered field, computed with exactly (the code: `f64`, with the time of a frame accumulated). `⊤` stands for `f64::MAX`. Messages arrive between two quanta. The offset parameter of a quantum is a list of one value or one value per frame (`C24_length`).
- `Source/OscModel.lean` (Model of the oscillator): Models `OscillatorNode` (`new`, `start_at`, `stop_at`, `set_type`, `set_periodic_wave`, `/repo/src/node/oscillator.rs` l.179-200, l.210-274, l.314-337) and `OscillatorRenderer` (l.365-676). Times are computed exactly. The arithmetic of the phase (increment, first phase, sum, unrolling, position in the table) takes the rounding function `rd`: the identity for exact arithmetic, rounding to 53 bits for `f64`. `⊤` stands for `f64::MAX`. The computed frequency (l.30-32) is the function `comp` of frequency and detune. Panics are `none`. Not modelled: the rounding of the samples, which are computed from the phase exactly, and their conversion to `f32`.
- `Source/PeriodicWave.lean` (C44: wave tables): Models `PeriodicWave::new`, `generate_wavetable` and `normalize` (`/repo/src/periodic_wave.rs` l.103-209) over the reals (the code: `f32`).
- `Stats/Exposed.lean` (C47: the exposed playback statistics): The values that `AudioContext::playback_stats` exposes are refreshed at most once per second (`/repo/src/playback_stats.rs` l.91-120).
- `Stats/Model.lean` (Playback statistics): Models `/repo/src/stats.rs`, `/repo/src/playback_stats.rs` and `render_capacity_event` of `/repo/src/capacity.rs`. Every method is a list of steps, one per atomic operation, on the shared state and on the variables of the calling thread. Simplifications: the `AtomicU64` are natural numbers (they do not wrap at 2^64), and the steps of all threads are interleaved in one order (the code uses `Relaxed`, which allows more).
- `Tail/Ends.lean` (Sounds end (C105)): C104 says that nodes whose handles have been dropped are released, provided their tails are finite. Here the tails of the processors are shown to be finite, with bounds: the return value of `process` (`tail_time`, `/repo/src/render/processor.rs` l.124-139) becomes false.
- `Thread/Garbage.lean` (C86: who destroys the objects that the user hands to the engine): Models the way of the objects that are sent to processors (audio buffers, curves of wave shapers, wave tables, convolvers, HRTF data, value curves of parameters): `NodeMessage` (`/repo/src/render/thread.rs` l.199-204), the `onmessage` methods of the processors, the removal of nodes (`/repo/src/render/graph.rs` l.553-560), the queue of the garbage collector thread (`/repo/src/render/thread.rs` l.114-120, 543-581) and the end of the render thread (l.543-550). Objects are numbered. Left out: processors as objects of their own and the hand-over of the graph to another render thread.
- `Thread/Model.lean` (Model of the real-time render thread): Models `RenderThread::handle_control_messages` (`/repo/src/render/thread.rs` l.123-134), `handle_control_message` (l.136-252), `render_inner` (l.441-532). The graph is abstract: `G` with an arbitrary `render` (the graph itself is modelled in `Verif/Graph`). Samples are elements of an arbitrary type `K` with a zero. The conversion to the sample type of the device (`S::from_sample_`) is omitted. Which control messages have arrived when the thread polls its queue is decided by the environment: each poll consumes the next batch of a list of batches, so that all interleavings with control threads are covered. A panic of the thread is `none`.
- `Thread/OfflineModel.lean` (Model of offline rendering): Models `OfflineAudioContext::{calculate_suspend_frame, suspend, suspend_sync}` (`/repo/src/context/offline.rs` l.241-251, l.294-320, l.359-387) and `RenderThread::{render_audiobuffer_sync, render_audiobuffer, render_offline_quantum}` (`/repo/src/render/thread.rs` l.260-302, l.309-352, l.355-396). As in `Verif.Thread.Model` the graph is abstract and each poll of the control messages consumes the next batch of a list. The poll after a quantum only happens if events were handled (l.289-293); if not, its batch is taken to be empty. What a suspend callback does to the context is visible to the renderer only through the messages it sends. Destructors (`unload_graph`) are not modelled.
- `Thread/Pause.lean` (C103: pausing inserts silence and loses nothing): About `RenderThread::render_inner` (`/repo/src/render/thread.rs` l.441-532) with the messages `Suspend`, `Resume` and `Close` (l.215-229), in the model of `Verif.Thread.Model`, compared with an offline rendering (l.260-302, l.355-396, model `Verif.Thread.OfflineModel`), which ignores these messages.
- `Thread/Same.lean` (C100: what the device plays is what an offline rendering gives): Compares `RenderThread::render_inner` (`/repo/src/render/thread.rs` l.441-532) with `RenderThread::render_audiobuffer_sync` and `render_offline_quantum` (l.260-302, l.355-396), in the models of `Verif.Thread.Model` and `Verif.Thread.OfflineModel`: the same graph, the same control messages.
- `Whole/Band.lean` (C112: a band that is set up once and then only gets messages): The notes are in the graph at the beginning, and their handles are kept. From then on only messages to processors arrive (start, stop, automation events, …; `/repo/src/render/thread.rs` l.205-213). Then nothing has to be assumed about later graphs.
- `Whole/Device.lean` (C109: what the device plays): Puts together the model of the render thread (`Verif.Thread.Model`, `/repo/src/render/thread.rs`) and that of the graph with its control side (`Verif.Graph.SystemModel`, `/repo/src/render/graph.rs`, `/repo/src/context/concrete_base.rs`): the graph of the thread is the whole system of the graph, the queue of messages and the administration of ids and connections. What other threads do (and how many messages the render thread takes out of the queue) happens when the render thread polls its queue: operations on the control side only touch the queue, their own administration and the ids that the graph has given back, so that this is as good as any other moment since the last poll.
- `Whole/Ensemble.lean` (C114: a context plays a program of oscillators and constant sources as written): As `Verif.Whole.Program`, with oscillators (`/repo/src/node/oscillator.rs` l.210-277) besides constant sources, in any number and order. Frequency, detune, offset and gain may have any automation.
- `Whole/Program.lean` (C113: an offline context plays a program of notes as written): From the calls of an application to the samples of the rendered buffer. For every note the application creates a constant source and a gain node (`/repo/src/node/constant_source.rs` l.141-170, `/repo/src/node/gain.rs` l.101-130), connects the source to the gain node and this to the destination, and schedules start, stop and the automation of both parameters. Then it calls `start_rendering_sync` (`/repo/src/context/offline.rs` l.178-190, `/repo/src/render/thread.rs` l.260-302).
- `Whole/Stage.lean` (Histories of a graph, quantum by quantum, and what a single node gets of them): Between two quanta the render thread handles the messages that have arrived (`/repo/src/render/thread.rs` l.136-252, l.351-439), then the graph is rendered (`/repo/src/render/graph.rs` l.490-591) at the next frame. Here the graph is followed from the start of one quantum to the start of a later one, and a single node with the messages that are addressed to it.
- `Whole/Studio.lean` (C110: a piece can be played at any time): The graph with all processors that look at the clock and have a sound: constant sources, oscillators, buffer sources and AudioParams (with the models of `Verif.Source` and `Verif.Param`; a search for `current_time` and `current_frame` in `/repo/src` shows that besides them only delay lines (comparison of frames, see `Verif.Delay`), script processors (the time is handed to the user) and analysers (control side) use the clock). Any other processors, which do not look at the clock, are given by an arbitrary `Sem`. Simplifications: exact arithmetic. Sources look up their parameters also when they then do not need them. The sample rate of the buffer of a buffer source is fixed when the source is created.
- `Whole/Tones.lean` (C112: the notes of constant sources, and their envelopes): `Verif.Whole.Score` reduces the sound of a graph to sources and parameters alone. Here these are spelled out for constant sources (`/repo/src/node/constant_source.rs` l.183-288) and for envelopes of set value, ramp and target events (`/repo/src/param.rs` l.799-1600): times and values, no state.
- `Whole/Tuning.lean` (C112: the notes of oscillators): `Verif.Whole.Score` reduces the sound of a graph to sources and parameters alone. Here the source is an oscillator (`/repo/src/node/oscillator.rs` l.365-676) with constant frequency: the wave of the note is the waveform at the phase `frequency * (time - start time)`, from the start time to the stop time.
- `Worklet/Model.lean` (C70: what a worklet processor sees and what becomes of what it writes): Models `AudioWorkletNode::new` (the output channel counts, `/repo/src/worklet.rs` l.202-243), `Processor::load` (l.311-321), `AudioWorkletRenderer::process` and `onmessage` (l.341-459). `α` is the content of a channel; channels have value semantics (C14 is about the copy on write beneath). The slices handed to the processor are references. Those to the outputs are modelled as locations (output, channel), so that a wrong grouping would write to the wrong place. `split_at` beyond the end of the slice panics: `none`. Parameters and scope are part of the function `process` of the processor.
- `Worklet/Props.lean` (C70: theorems about worklets): The model is in `Worklet/Model.lean` (`/repo/src/worklet.rs`).

## Properties

Per property: how it is modelled and proved, the status, the theorems.

### C01 Connected nodes are processed upstream-first

Whenever the rendering thread (re)computes the processing order, then for every connection (audio or AudioParam) u -> v between two nodes that are scheduled, u is processed before v in each quantum, and no node is scheduled twice.

*Approach* (`Verif/Graph`): `visit`/`order_nodes` as recursive functions on a finite graph. The DFS invariant (finishing order) is proved by induction on the recursion; the spec talks about positions in the resulting list only.

*Status*: proved. 

- `Graph.C01_upstream_first`: Ordering succeeds for every graph; the order has no duplicates, contains live nodes only and every remaining connection between two scheduled nodes goes forward in the order.

### C02 Ordering terminates and an acyclic graph is rendered in full

Recomputing the order always finishes. If the connections contain no cycle then every live node is scheduled exactly once and no connection is removed.

*Approach* (`Verif/Graph`): The DFS takes fuel and is proved never to run out; the restart loop removes at least one connection per round. Completeness for acyclic graphs: a reported cycle is a real path.

*Status*: proved. 

- `Graph.C02_terminates_and_complete`: Ordering never panics and never runs out of the recursion / restart bound, and for an acyclic graph it keeps all connections and schedules every node exactly once.

### C03 Only cycles are cut: delay nodes break cycles, delay-free cycles are muted

Resolving cycles removes connections only from delay nodes that lie on a cycle, and it drops a node from the order only if that node lies on a cycle of the remaining connections. After ordering, every cycle of the remaining connections contains a muted node.

*Approach* (`Verif/Graph`): Paths are `TransGen` of the edge relation, independent of the DFS.

*Status*: proved. 

- `Graph.C03_only_cycles_are_cut`: Cycle resolution only touches cycles: connections are removed only from cycle breakers which lie on a cycle of the given graph (all other connections stay), a node is left out of the order only if it lies on a cycle, and every cycle that remains after cutting contains a node that is left out.

### C04 Every node on a delay-free cycle is muted

A node that lies on a cycle of connections which contains no delay node produces no output (is not scheduled).

*Approach* (`Verif/Graph`): False in the code (the DFS records one path per back edge): negation by a concrete graph, and what does hold.

*Status*: partial. The full claim is false of the code; negation proved with a witness graph.

- `Graph.C04_negated`: C04 is violated by the code: node 4 lies on the delay-free cycle 1 → 4 → 2 → 3 → 1 but it is scheduled (not muted).
- `Graph.C04_cycle_muted_partial`: the part that holds: on every cycle without cycle breaker at least one node is muted (missing for the full claim: all of its nodes). Here a cycle is a closed walk `p` through nodes of the graph; cutting does not touch it as it contains no cycle breaker.

### C05 Every live node is processed in every quantum, whatever order the control messages arrive in

After any sequence of node registrations, connects, disconnects and drops handled between two quanta, the next rendered quantum processes every live node that is not on a cycle.

*Approach* (`Verif/Graph`): False in the code (a registration does not clear the order). Partial: batches in which a registration is followed by a (dis)connection.

*Status*: partial. False of the code: a registration after the last (dis)connection of a batch leaves the order incomplete. Proved for batches without that pattern and for acyclic graphs.

- `Render.C05_negated`: C05 is violated: a playing source connected to the destination is not heard as soon as any other node without params is created after the connection and before the next quantum; it stays silent (four quanta shown). Without that registration it is heard.
- `Render.C05_negated_stuck_output`: Same defect, audible form: after the source has been disconnected and an unrelated node has been created, the destination keeps emitting its last buffer in every following quantum.
- `Render.C05_batch_partial`: the part that holds (1): suppose the order is complete, and a batch of messages is handled before the next quantum in which either no (dis)connection happens, or no node is registered after the last (dis)connection (`pre` may contain anything). Then the order is complete again (or will be recomputed). Missing for the full claim: registrations after the last (dis)connection of a batch.
- `Render.C05_every_node_processed_partial`: the part that holds (2): if the order is complete and the graph is free of cycles, the quantum processes every node of the graph exactly once and leaves a complete order.

### C06 A node is only destroyed when nobody can hear or control it

The rendering thread removes a node only in a quantum in which (a) its processor panicked, or (b) its control handle was dropped before, and either it received no input in this quantum and (it reported no tail or it has no outgoing connection), or it has no outgoing connection and no side effects. A node with a live handle is never removed as long as its processor does not panic.

*Approach* (`Verif/Graph`): `Graph::render` with arbitrary processors; the reason of each removal is extracted from the removal condition for every state.

*Status*: partial. Per quantum for all graphs and processors, with panics (C06_destroyed_general); for histories a live handle keeps its node when no processor panics. False otherwise: after a panic the id is recycled and the drop of the old handle destroys the new node (negation).

- `Render.C06_destroyed_only_when_useless`: If a quantum destroys a node (processors do not panic), then its control handle has been dropped and one of the following holds, where `n1` is the node at the start of the quantum (after a delay node on a cycle has been detached) and `tail` the tail flag it reported when it was processed in this quantum, i.e. with the inputs `na.inputs` it had received from the nodes `pre` before it: * no node processed in this quantum is connected to one of its inputs (connections to its AudioParams do not count, they belong to the params), and either it reported that its tail has ended or it is connected to nothing; or * it is connected to nothing and its processor has no side effects. So it can neither be heard any more nor be controlled.
- `Render.C06_destroyed_general`: C06 for arbitrary processors. If a quantum destroys a node, then its processor panicked when it was processed in this quantum, or its handle has been dropped and: no signal was sent to its inputs in this quantum (`trace` lists the nodes processed before it with the connections they served) and its tail has ended or it is connected to nothing; or it is connected to nothing and its processor has no side effects.
- `Render.C06_live_handle_keeps_node_partial`: Whatever the history (scope as in C07), a node whose handle is alive is in the graph as soon as its registration has been handled, and it is the one that was created with this handle.
- `Render.C06_negated`: C06 fails for histories in which some processor panics: the id of the panicked node is recycled for a new node, the drop of the old handle marks the new node as dropped, and the next quantum destroys it although its handle is alive, its processor has not panicked, and it is connected to the destination.

### C07 Removing a node leaves no dangling connection

In every reachable state of the rendering thread every connection points from a live node to a live node and the destination node is never removed while its handle is alive; destroyed nodes disappear from the order.

*Approach* (`Verif/Graph`): Invariant over all histories of the system model.

*Status*: partial. All histories without processor panics; constructors may fail for ids below 64. False when a processor panics (negation proved).

- `Render.C07_no_dangling_connections_partial`: Whatever the history, the render thread does not panic, every connection in the graph leads from an existing output to an existing input of an existing node, and the processing order contains every node at most once, only existing nodes, and respects all connections. Scope: processors do not panic, and constructors may fail half way only for nodes whose id is below 64; see `C07_negated`, `C09_negated` and `C54_negated` for what happens otherwise.
- `Render.C07_negated`: C07 fails when a processor has panicked: its node is removed although its handle is alive, so that another node can still be connected to it. The connection leads nowhere, and the next quantum panics.

### C08 Node ids are unique among live nodes

At any time no two nodes that are alive on the rendering thread, or whose registration is still in flight, or which are controlled by a live handle, carry the same id, although ids are recycled.

*Approach* (`Verif/Graph`): Invariant over all interleavings of control threads and render thread, with ghost serial numbers.

*Status*: partial. False when a processor panics (negation proved); proved for all histories without panics, with failing constructors for ids below 64.

- `Render.C08_ids_unique_partial`: Two different live handles never share an id; an id handed out for a new node is not the id of a live handle, of a node that is still rendering, or of a registration that is under way. Scope as in C07.
- `Render.C08_negated`: C08 fails when a processor panics: the node is removed and its id is recycled although its handle is alive; two live handles then have the same id.

### C09 Control messages always find their node

A message posted through a node handle (start, stop, parameter event, channel configuration, connect, ...) is delivered to exactly the processor that was created with this handle, never to another node and never to a missing node.

*Approach* (`Verif/Graph`): The ghost serial number that a message carries equals the serial number of the node that handles it; invariant over all interleavings.

*Status*: partial. False when a processor panics (negations proved); proved for all histories without panics, with failing constructors for ids below 64.

- `Render.C09_messages_find_their_node_partial`: Whatever the history, the engine does not crash, and the next message in the channel finds the very node whose handle sent it (the message of a failed construction, which has no node, finds no node or one whose handle is dropped already); the target of a connect message exists as well, and a registration finds a free slot to which no connection points. Scope as in C07.
- `Render.C09_negated`: C09 fails when a processor has panicked: its handle is alive, the next message sent with it makes the render thread panic (index of a removed node), i.e. the whole context dies.
- `Render.C09_negated_misdelivery`: C09 fails when a processor has panicked, second form: after the id has been recycled, a message sent with the old handle reaches the new, unrelated node.

### C10 Connections behave like a set

After any sequence of connect and disconnect calls (including disconnect of an output, of a destination, of everything) the signal of output o of A reaches input i of B exactly once iff the last operation that concerns (A,o,B,i) was a connect. Reconnecting an existing connection has no effect.

*Approach* (`Verif/Graph`): Counting: multiplicity of an edge in the graph equals connects minus disconnects since the last clearing.

*Status*: partial. False: repeated connect multiplies the connection. Proved: exact multiset semantics for live handles.

- `Render.C10_negated`: C10 is violated: connecting twice doubles the signal.
- `Render.C10_connections_partial`: what the code provides: connections form a multiset. For every history (no panics, drops and constructors atomic, `a` not a delay writer) and every two handles that are alive at its end: once the render thread has handled all messages, the number of parallel connections from output `out` of `a` to input `inp` of `b` is the number of `connect` calls since the last covering `disconnect`. In particular no connection is lost or survives a disconnect. Missing for the full claim: repeated `connect` calls should not multiply the connection, see `C10_negated`.

### C11 Disconnect takes effect also when the other handle is gone

Calling disconnect() on a node removes all its outgoing connections, also those to nodes whose control handle has been dropped in the meantime.

*Approach* (`Verif/Graph`): Negations by concrete histories; partial for live handles.

*Status*: partial. False after the destination handle is dropped, and under a race of drop with creation. Proved while both handles are alive.

- `Render.C11_negated`: C11 is violated: source 11 feeds gain 12 which feeds the destination. When the handle of the gain is dropped before the source is disconnected, the call has no effect: the source stays audible.
- `Render.C11_negated_race`: C11 is violated also for live handles when control threads interleave (the two parts of `mark_node_dropped` are separate): thread 1 drops node 11 and is interrupted between the two parts; the render thread frees the node; thread 2 creates a new node, which gets the id 11, and connects it; thread 1 continues and erases the administration of the new node. The new node can then not be disconnected any more.
- `Render.C11_disconnect_effective_partial`: the part that holds: while both handles are alive, `a.disconnect(..)` takes effect: as soon as the messages have been handled, the graph contains no covered connection from `a` to `b`.

### C12 Channel up/down-mixing follows the specified matrices

Mixing any quantum from n to m channels yields exactly m channels, whose samples are those of the Web Audio mixing rules for 'speakers' (1,2,4,6 channel layouts) and 'discrete' (truncate or pad with silence).

*Approach* (`Verif/Mix`): `mix` on lists of channels over any field; the spec is a table of matrices written from the W3C text.

*Status*: partial. All channel counts, all samples, both interpretations; exact arithmetic over any field. The code deviates from the W3C rule for speakers 4->5 channels (negated theorem); the theorem covers everything else.

- `Mix.C12_mix_partial`: C12 Mixing a buffer of any number of channels to any number of channels gives the frames of the Web Audio specification, for every sample. Exception (see `C12_negated`): speakers interpretation from 4 to 5 channels.
- `Mix.C12_negated`: exception. From 4 to 5 channels with speakers interpretation the implementation leaves the third channel silent and moves the surround channels behind it; 5 channels is not one of the speaker layouts of the specification, so that the rule is discrete mixing.

### C13 Summing into an input equals the specified mix-then-sum

The signal at a node input is the samplewise sum of all connected outputs, each mixed individually to the input's computed channel count (max / clamped-max / explicit); it does not depend on the order in which connections are summed.

*Approach* (`Verif/Mix`): `add` including the identity shortcut on shared buffers; the spec mixes every input to the final count and adds.

*Status*: partial. False in general: fast path for channels with identical memory and progressive up-mixing in max mode (negated theorems). Proved for discrete interpretation (all counts and modes), for speakers with mono/stereo, and for speakers with any channel counts if the count stays the same while summing (explicit mode, or the largest signal first) and no channels share memory.

- `Mix.C13_sum_partial`: C13 The input of a node is the specified sum, if the interpretation is discrete, or if only mono and stereo signals and channel counts are involved. What is missing from the full property is false: see `C13_negated_fast_path`, `C13_negated_order`.
- `Mix.C13_order_partial`: order independence in the same situations: connecting the same signals in another order (and with any other layout in memory) gives the same input.
- `Mix.C13_negated_fast_path`: C13 is false (1). One connection whose four channels share the same memory (for instance a `ChannelMergerNode` with the same mono source at all inputs) into an input with speakers interpretation and 4 channels: the two surround channels are lost. The fast path of `add` reduces buffers with identical channels to mono and mixes back to 4 channels.
- `Mix.C13_negated_order`: C13 is false (2). The order of the connections matters in speakers interpretation with mode `max`: mono first brought to stereo and then to 5.1 ends up left and right, otherwise in the centre.
- `Mix.C13_layouts_partial`: all speaker layouts. The input of a node with speakers interpretation is the specified sum, for any numbers of channels of the connected signals, if the mode is `explicit` or the signal that comes first has the most channels, if no two channels share memory unless they are silent, and if four channels are not brought to five (`C12_negated`). What is missing from the full property is false: see `C13_negated_fast_path`, `C13_negated_order`.

### C14 Copy-on-write buffers never leak writes

Writing samples through one channel handle never changes the samples observed through any other handle, and silence stays silent: the shared zero buffer is never modified, even though buffers are shared, cloned, dropped and recycled through the pool.

*Approach* (`Verif/Cow`): Heap of reference counted buffers with pool; refinement to value semantics by a simulation invariant over every history.

*Status*: proved. Heap with reference counts, pool and zero buffer refines value semantics for every history.

- `Cow.C14_value_semantics`: C14 For every sequence of creating, cloning, dropping, writing and adding of channels, starting with any pool size, every handle reads the samples it would read if handles never shared memory.
- `Cow.C14_write_is_local`: C14 Writing through one handle does what it says and changes nothing that any other handle sees, in every reachable state.
- `Cow.C14_silence`: C14 Silence stays silent: the shared buffer of zeroes is never modified, and a channel that reports to be silent contains zeroes.
- `Cow.C14_pool_unshared`: C14 A buffer waiting in the pool is seen by no handle, and is there only once.

### C15 Output stream is independent of the hardware callback size

The concatenation of the frames written to the audio device is the concatenation of the rendered quanta (interleaved), for every sequence of callback buffer sizes; no frame is lost, duplicated or reordered at callback borders.

*Approach* (`Verif/Thread`): `render_inner` as a transducer; the output is a window of the infinite stream of quanta, by induction over callbacks.

*Status*: proved. Every sequence of callbacks (whole frames), arbitrary control messages; and for an undisturbed graph the output only depends on the total length. Exact stream, sample format conversion omitted.

- `Thread.C15_stream`: whatever the sizes of the device buffers (whole frames), their old contents and the arrival of control messages: all buffers are filled completely, and what has been written is the stream of the quanta rendered and gaps inserted so far, cut off (only the rest of the last quantum is outstanding).
- `Thread.C15_callback_size`: for a running graph that stays active and no control messages, rendering does not fail and the device receives a prefix of the interleaved quanta, as long as the buffers together: the sizes of the device buffers do not matter.

### C16 Suspend silences the output from the moment it is processed

Once a suspend/close request is processed no further quantum is rendered and time does not advance until resume; requests processed while a large device callback is being filled are safe.

*Approach* (`Verif/Thread`): Same model with messages between the chunks of a callback.

*Status*: partial. False as stated: a suspend processed inside a callback does not stop the remaining chunks, CloseAndRecycle inside a callback panics (both proved). Proved for requests that are effective between callbacks, and absence of panics without CloseAndRecycle.

- `Thread.C16_suspend_partial`: between callbacks: when the thread is suspended (or closed) and no resume request arrives, then for any sizes of device buffers and any other messages no quantum is rendered, time stands still, and the device gets what was left of the last quantum followed by zeros. Missing for the full claim: requests processed within a callback, see `C16_negated_suspend`.
- `Thread.C16_safe_partial`: safety: once started, and if no request to hand over the graph (`set_sink_id`) arrives, the thread never fails, for all positions of suspend, resume, close and graph messages relative to quanta and callbacks. Missing: `CloseAndRecycle`, see `C16_negated_recycle`.
- `Thread.C16_negated_suspend`: C16 fails: a suspend request processed while a device buffer of 256 frames is being filled does not stop the rest of that buffer; time advances and sound is emitted while the state is `suspended` (thread.rs l.483-531 polls the messages after each chunk but does not test `suspended`).
- `Thread.C16_negated_recycle`: C16 fails: `set_sink_id` (CloseAndRecycle) processed while a device buffer of 256 frames is being filled makes the thread panic (`graph.as_mut().unwrap()`, l.500).

### C17 Offline rendering yields exactly the requested number of frames

start_rendering returns a buffer with exactly the requested channel count and length, whose frame k is frame k mod 128 of quantum k / 128, for lengths that are not multiples of the quantum size too.

*Approach* (`Verif/Thread`): Offline loops, sync and async; equality of sample lists for all lengths.

*Status*: proved. All lengths, channel counts, quantum streams, suspensions, messages; relies on Vec::with_capacity(n) having capacity n (C17_capacity gives the length for any capacity).

- `Thread.C17_exact`: offline rendering that completes returns the requested number of channels, each with exactly `length` frames: the first `length` frames of the concatenation of `⌈length / 128⌉` quanta, whatever the number of channels of these quanta. For all suspensions and control messages. `Vec::with_capacity` must yield exactly the requested capacity (`cap = length`), see `C17_capacity`.
- `Thread.C17_capacity`: dependence on the allocator: for other capacities the length is wrong, e.g. a vector with room for 128 samples when 100 were requested (allowed by the documentation of `Vec::with_capacity`).

### C18 Offline suspend callbacks run exactly once at the requested quantum

A callback scheduled with suspend(t) (0 <= t < duration) runs exactly once, after all quanta that end at or before t rounded up to the quantum grid and before any later quantum, in order of time.

*Approach* (`Verif/Thread`): Bookkeeping of suspensions as a sorted list; which callbacks run before which quantum.

*Status*: partial. False for times that round up to the end of rendering (callback lost) and when the promise of an asynchronous suspend was dropped (panic); f64 rounding moves a suspension one quantum late. Otherwise proved for all sets of suspensions.

- `Thread.C18_suspend_partial`: if a set of suspensions is accepted and rendering completes (exact arithmetic), then the history is: for each quantum first the callback whose time rounds to that quantum, if there is one, then the quantum. So each of these callbacks runs exactly once, before the quantum its time is rounded up to, in order of time. Missing for the full claim: suspensions within the last quantum are rounded up to the end of the rendering and never run (`C18_negated`), and rounding errors of the floating point computation (`C18_negated_rounding`).
- `Thread.C18_negated`: C18 fails: a suspension at a time after the start of the last quantum is accepted although it rounds up to the end of rendering, and its callback never runs.
- `Thread.C18_negated_rounding`: C18 and rounding errors: a user asks for the start of quantum 13 at 44.1 kHz, with the time computed in `f64` as `13 * 128 / 44100`; the suspension happens at quantum 14, because that time is rounded to just above the start of quantum 13.
- `Thread.C18_negated_dropped`: the asynchronous variant panics if the future returned by `suspend` was dropped (after being polled once): `sender.send(()).unwrap()`, thread.rs l.331

### C19 Control messages are processed in the order they were sent, none is lost

Messages sent by a thread are processed by the rendering thread in program order, exactly once, including messages sent while the context is suspended (buffered) and flushed at resume.

*Approach* (`Verif/Control`): Small-step interleaving of any number of sending threads with the flush.

*Status*: partial. Messages issued by one thread in one connected phase take effect in issue order, and every message in the channel was issued. False in general: a message issued while the queue is being flushed at connection time can overtake queued ones, and messages are dropped when the backend is swapped; both are proved as negations.

- `Control.C19_order_partial`: in every interleaving of any number of control threads that follows the discipline `Careful`: what the render thread processes from a thread is always an initial part of what that thread issued, in program order; when no call is in progress and the context is not suspended, everything has been sent, exactly once and in order. Missing for the full claim: without the discipline messages are lost or reordered, see `C19_negated_lost` and `C19_negated_order`.
- `Control.C19_issued`: the record of issued messages is what the calls of the history issued, in order.
- `Control.C19_negated_lost`: C19 fails: messages are lost when `suspend` is called again before the render thread has processed the first call (`AudioContext::suspend` is asynchronous and only checks `state()`, online.rs l.523-542): `suspended_messages` is overwritten. One thread.
- `Control.C19_negated_order`: C19 fails: a thread's messages are reordered when another thread resumes the context: message 1 is still waiting to be flushed by thread 1 when message 3 of the same thread goes directly to the channel.

### C20 currentTime is monotone and counts rendered frames

currentTime observed by any thread never decreases and always equals 128*q/sampleRate where q is the number of quanta started; it advances by one quantum per rendered quantum and does not advance while suspended.

*Approach* (`Verif/Thread`): Invariant of the frame counter along every run.

*Status*: partial. Counter equals 128 times the number of quanta, k-th quantum stamped 128k, monotone; offline the same follows from C18_suspend_partial. Time does advance after a suspend processed inside a callback (C16_negated_suspend).

- `Thread.C20_clock`: the frame counter is 128 times the number of quanta rendered, and the k-th quantum is rendered at time `128 k`. Stated for a thread that continues at `n` quanta (`set_sink_id` starts a new thread with the counter of the old one).
- `Thread.C20_monotone`: time never goes back, and what was rendered stays in the past: the history only grows.
- `Thread.C16_negated_suspend`: C16 fails: a suspend request processed while a device buffer of 256 frames is being filled does not stop the rest of that buffer; time advances and sound is emitted while the state is `suspended` (thread.rs l.483-531 polls the messages after each chunk but does not test `suspended`).
- `Thread.C16_suspend_partial`: between callbacks: when the thread is suspended (or closed) and no resume request arrives, then for any sizes of device buffers and any other messages no quantum is rendered, time stands still, and the device gets what was left of the last quantum followed by zeros. Missing for the full claim: requests processed within a callback, see `C16_negated_suspend`.

### C21 Event handlers: Once fires at most once, Multiple keeps firing, replacement wins

A 'once' handler runs at most once; a persistent handler runs for every event of its type as long as it is registered; setting or clearing a handler takes effect for all later events, even when done from inside a handler.

*Approach* (`Verif/Events`): Event loop with handlers that set and clear handlers while they run.

*Status*: partial. For histories in which a persistent handler does not change its own registration while it runs, exactly the handler in force runs, in order; once handlers run at most once in all histories. False in general: a persistent handler that clears or replaces itself is put back (negations).

- `Events.C21_in_force_partial`: for each event exactly the handler in force runs: the last one set, if it was not cleared and not a `once` handler used up already. For all histories, including changes made inside `once` handlers, and changes of other events inside persistent ones. Missing for the full claim: a persistent handler that changes (or another thread that changes) its own registration while it runs, see `C21_negated`.
- `Events.C21_once`: a `once` handler runs at most once per registration, in all histories, whatever handlers do while they run. (Registrations are distinct: a `FnOnce` callback is moved into the registration.)
- `Events.C21_negated`: C21 fails: a persistent handler that clears its own registration is put back, and runs again.
- `Events.C21_negated_replace`: C21 fails: a handler set while a persistent handler for the same event runs is lost.

### C22 Handlers belong to their node

An event handler registered on a node is only invoked for events of that node, not for events of a later node which happens to reuse its internal id.

*Approach* (`Verif/Events`): Negation by a history with a recycled id; partial with the hypothesis that nothing is left under the id.

*Status*: partial. Holds when no handler is left under an id that is reused; false otherwise (negation: the handler of a dropped node runs for the events of a node that got its id).

- `Events.C22_own_events_partial`: if handlers are cleared (or have run, `once`) before the id of their node is reused, then a handler is only invoked for events of the node it was registered on. Missing: see `C22_negated`.
- `Events.C22_negated`: C22 fails: the handler of node 1 (dropped without the handler being cleared or having run) is invoked for an event of node 2, which got the same internal id.

### C23 AudioParam values always stay within nominal range and are never NaN

Every value of a parameter that a node processor sees lies within [minValue, maxValue] and is not NaN, whatever automation was scheduled and whatever signal (including NaN) is connected to the parameter.

*Approach* (`Verif/Param`): `mix_to_output` on values with explicit NaN.

*Status*: proved. mix_to_output on floats with NaN explicit: every value seen by the node is in [min,max], NaN becomes the default.

- `Param.C23_range`: whatever was scheduled (any sequence of events, rates and quanta), with any arithmetic on values, any addition and any input signal, the values a node sees are finite numbers in `[mn, mx]`, and there are 1 or `count` of them.
- `Param.C23_sum`: content: where neither NaN nor clamping interferes, the value a node sees for frame `i` is the sum of the automation value and the input (for a k-rate parameter the first sample of the input).

### C24 Automation yields one value or exactly one value per frame

In every quantum the automation computation terminates and yields exactly 1 or exactly 128 values, never more (which would overflow the fixed buffer) or fewer; a-rate buffers collapse to 1 only if all values are equal.

*Approach* (`Verif/Param`): `compute_buffer` for all automation kinds; fuel is proved sufficient, length is 1 or the block size.

*Status*: partial. Buffer length 1 or the quantum size and termination are proved for all timelines; the collapse to one value is proved except for a target that has not started and is directly followed by a ramp, where it is false (negation).

- `Param.C24_length`: a quantum yields exactly 1 or exactly `count` (128) values: one for k-rate parameters and for a-rate parameters when no event is due (see `C24_collapse`), otherwise `count`.
- `Param.C24_terminates`: the computation terminates: the bound on the number of passes is never exhausted.
- `Param.C24_collapse_partial`: the buffer of an a-rate parameter collapses to 1 value only if all values are equal: computing the whole block would give this value for each frame (up to the flushing of subnormal values to zero, the identity in exact arithmetic). Not covered: a set target event that has not started directly followed by a ramp (see `C29_negated_ramp`: computing such a block ends the set target event too early).
- `Param.C24_negated_ramp`: C24 is false for a target that has not started and is followed by a ramp: the a-rate buffer collapses to a single value, but the computation for all the frames yields different values.

### C25 The automation timeline is always sorted and stable

After any sequence of scheduling calls the pending events are sorted by time, and events scheduled for the same time keep their insertion order.

*Approach* (`Verif/Param`): Invariant: sorted, and stable with respect to the order of insertion.

*Status*: proved. Timeline sorted by time, equal times in call order, after every call and quantum.

- `Param.C25_sorted`: after any history of scheduling calls, rate changes and rendered quanta the pending events are sorted by time.
- `Param.C25_stable`: a scheduled event comes after all pending events of the same time, and the order of those does not change. (`implicit`: the value set implicitly, at time 0, before a first ramp.)

### C26 setValueAtTime is sample accurate

With only setValueAtTime events scheduled, the value at any frame is the value of the last event whose time is not after this frame (the initial value if there is none), regardless of how frames are grouped into quanta.

*Approach* (`Verif/Param`): Refinement of the block algorithm to a per-frame specification (`walk`), by induction over blocks.

*Status*: partial. Sample accurate up to rounding of times to frames; false off the grid and for late events.

- `Param.C26_C27_frames`: C27: set value events and linear ramps scheduled in time order (starting with a set value event) are sample accurate up to the rounding of event times to frames, for any event times, in every quantum: from the frame of an event until the frame of the next one the value is the one of the event, or follows the line to the next event if that is a linear ramp. `A.lin` is the formula of the line, see `C27_exact_partial`.
- `Param.C26_sets_partial`: with only set value events, scheduled at any time no later than their own time, the value at any frame of any quantum is that of the last event whose time (rounded to frames) is not after this frame, the initial value if there is none, however the scheduling calls and the quanta interleave. Missing: events scheduled later than their time (`C26_negated_late`), the rounding (`C26_negated_rounding`).
- `Param.C26_negated_rounding`: C26 fails off the sample grid: an event at 1.4 frames is in effect at frame 1 already.
- `Param.C26_negated_late`: C26 fails for an event scheduled later than its time: it overrides a later event that was processed in time.
- `Param.C26_C27_new`: C27, C58 for the parameter of a new node (of any default value): its value is set to `w` by the constructor, the events `es` are scheduled in any order, then quanta are rendered. Nothing panics, and in every frame of every quantum the value is that of the envelope of the events in time order: set values hold, ramps are lines or exponential curves from the event before, with the times of events rounded to the nearest frame.

### C27 Linear ramps interpolate exactly

Between the previous event (t0,v0) and a linear ramp event (t1,v1) the value at every frame time t is v0+(v1-v0)(t-t0)/(t1-t0), and v1 afterwards; ramps stay between v0 and v1 and are independent of the quantum partition.

*Approach* (`Verif/Param`): Same, for linear ramps.

*Status*: partial. Exact on the line for frames at least half a frame before the end; false in the half frame before start and end.

- `Param.C26_C27_frames`: C27: set value events and linear ramps scheduled in time order (starting with a set value event) are sample accurate up to the rounding of event times to frames, for any event times, in every quantum: from the frame of an event until the frame of the next one the value is the one of the event, or follows the line to the next event if that is a linear ramp. `A.lin` is the formula of the line, see `C27_exact_partial`.
- `Param.C27_exact_partial`: in a schedule of set value events and linear ramps in time order, with event `(t0, v0)` directly before the linear ramp `(t1, v1)`, the value of the frame at time `t` is exactly `v0 + (v1 - v0) (t - t0) / (t1 - t0)` if `t0 ≤ t` and `t + dt/2 < t1` (`t < t1` if `t1` is the time of a frame), in particular between `v0` and `v1`, and `v1` from `t1` on, until the next event. Missing: the half frame before `t1` (`C27_negated_end`), the half frame before `t0` (`C27_negated_start`), events in another order than their times.
- `Param.C27_negated_end`: C27 fails in the half frame before the end of the ramp: for a ramp from (0, 0) to (3.4, 34) the value at frame 3 is the end value, not 30.
- `Param.C27_negated_start`: C27 fails in the half frame before the start of the ramp: from (0.4, 4) to (3.4, 34) the value at frame 0 is 0, which is not between the values of the two events (and not the value before them).
- `Param.C26_C27_new`: C27, C58 for the parameter of a new node (of any default value): its value is set to `w` by the constructor, the events `es` are scheduled in any order, then quanta are rendered. Nothing panics, and in every frame of every quantum the value is that of the envelope of the events in time order: set values hold, ramps are lines or exponential curves from the event before, with the times of events rounded to the nearest frame.

### C28 Scheduling automation never kills the audio engine

No sequence of accepted AudioParam scheduling calls makes the rendering thread panic.

*Approach* (`Verif/Param`): Classification of the calls that panic; partial for calls in time order; negations by concrete calls.

*Status*: partial. No panic when calls come in time order under the stated conditions; false in general.

- `Param.C28_safe_order_partial`: no sequence of accepted scheduling calls in a safe order, interleaved with rendering and rate changes, makes the render thread panic. Missing: other orders, which can panic (`C28_negated_*`), and the rounding of the position in a value curve (`CurveTotal`, true in exact arithmetic: `curveTotal_exact`, false in `f64`: `C57_negated`).
- `Param.C28_negated_ramp`: C28 is false: a ramp or a target that is scheduled before the first pending event.
- `Param.C28_negated_target`: C28 is false: a target that is scheduled before the first pending event.
- `Param.C28_negated_cancel`: C28 is false: cancelling such a ramp.
- `Param.C28_negated_overlap`: C28 is false: an event during a value curve, a value curve around an event.
- `Param.C28_negated_hold`: C28 is false: two cancel-and-holds in reverse order.
- `Param.C28_negated_past`: C28 is false: a value curve that starts (slightly) in the past, after a set target event has reached its target: the event that was put in its place is in the way. (`qArith` has 0 for `exp`, as `f64` has for `exp (-4000)`, the argument here.)

### C29 setTargetAtTime has no effect before its start time

Before the start time of a setTargetAtTime or setValueCurveAtTime event, the parameter keeps the value given by the preceding events.

*Approach* (`Verif/Param`): Partial within a block and for an isolated curve; negation for events two blocks ahead.

*Status*: partial. Holds within a quantum and for an isolated curve; false for targets scheduled two or more quanta ahead; a target equal to the current value even brings the parameter to its default value (overflow to NaN).

- `Param.C29_quantum_partial`: within a quantum: as long as the event is the next one, the frames of a quantum before its start keep the value the parameter has at the beginning of the quantum. Missing: what the value is at the beginning of the *next* quantum, see `C29_negated_target` and `C29_negated_curve`; a target directly followed by a ramp, see `C29_negated_ramp`; the last half frame before the start if another event follows immediately.
- `Param.C29_curve_partial`: C29 for a value curve alone: the parameter keeps its value up to (half a frame before) the start of the curve, for any number of quanta. Missing: other events (`C29_negated_curve`).
- `Param.C29_negated_target`: C29 is false for `set_target_at_time` alone: if the start time is at least two quanta in the future, the value is wrong in the whole second quantum already, whatever the arguments (`ex` has the property of `exp` that matters here).
- `Param.C29_negated_curve`: C29 is false for `set_value_curve_at_time` after another event: the curve starts at frame 10, but in the second quantum (frames 4 to 7) the value is 5 already.
- `Param.C29_negated_ramp`: C29 is false for a target that is followed by a ramp: the target starts at frame 10, but the value changes from frame 0 on (here `exp` is 0, so that the target is jumped to; with the exponential function it is `exp 10` in place of 0).
- `Param.C29_negated_nan`: C29 is false for a target that is equal to the current value, and that starts two quanta and `lim` time constants ahead or more: in the whole second quantum the node sees the default value of the parameter instead of the current value, although nothing should change at all.

### C30 cancelScheduledValues removes exactly the events at or after the cancel time

After cancelScheduledValues(t) exactly the events with time < t remain (ramps that end at or after t are removed too), and values before t are unaffected.

*Approach* (`Verif/Param`): Effect on the timeline for all timelines, effect on values through the refinement of C26/C27.

*Status*: partial. Timeline effect proved for all timelines; effect on values for schedules of set value events and ramps; false for values before the cancel time during a ramp.

- `Param.C30_timeline`: `cancelScheduledValues(t)` removes exactly the pending events with time `≥ t` and keeps the order of the others, for all timelines.
- `Param.C30_values_partial`: C30 for the values: schedule `es` (set value events and ramps in time order), render `k` quanta, call `cancelScheduledValues(t)` with `t` after the current time, render `m + 1` quanta. Every frame rendered after the call has the value it has when only the events of `es` with time `< t` are scheduled. Missing: target and curve events, and `t` in the past; the second half of the claim is `C30_unaffected_partial`.
- `Param.C30_unaffected_partial`: values before the cancel time: in the situation of `C30_values_partial` the frames (at least half a frame) before `t` have the value they have without the call, unless the first event that is removed is a ramp (then `C30_negated_ramp`).
- `Param.C30_negated_ramp`: C30 fails for the values before the cancel time during a ramp: ramp from (0, 0) to (10, 10), `cancelScheduledValues(8)` at time 4. Frames 4 to 7 jump to 0 (they are 4 to 7 without the call).

### C31 cancelAndHoldAtTime holds the value

After cancelAndHoldAtTime(t) the parameter keeps, from t on, the value it would have had at t, until the next event scheduled after it takes effect.

*Approach* (`Verif/Param`): Same refinement; negations by concrete histories.

*Status*: partial. Proved for set value events and ramps with a hold at a frame time, and for a running exponential approach with nothing scheduled after it; false with later events before the original ramp end, repeated holds, holds in the past, and targets followed by another event.

- `Param.C31_hold_partial`: schedule `as ++ bs` (set value events and ramps in time order, those of `as` at or before `tc`, those of `bs` after), render `k` quanta, call `cancelAndHoldAtTime(tc)` with `tc = q * dt` the time of frame `q`, not in the past, and render `m + 1` more quanta. Frames before `q` have the value they have without the call, all frames from `q` on the one of frame `q` without the call. Missing: target and curve events (`C31_negated_target`), events scheduled later (`C31_then_partial`, `C31_negated_later`), several holds (`C31_negated_twice`), events in the half frame after `tc`.
- `Param.C31_then_partial`: C31 with an event scheduled after the hold: in the situation of `C31_hold_partial`, with a ramp active at `tc` (`b`), a set value event or linear ramp `f` is scheduled after the call, not before the original end of `b` (nor before the other removed events; otherwise `C31_negated_later`). From `tc` to `f.time` the parameter keeps the value of frame `q` without the call, or goes on a line from this value at `tc` to `f`; from `f.time` on it has the value of `f`.
- `Param.C31_negated_later`: C31 fails for an event between the hold and the original end of the ramp: ramp from (0, 0) to (10, 10), hold at 4, set value 7 at 6. Frames 4 to 5 should be 4 and frames 6 to 7 should be 7.
- `Param.C31_negated_twice`: C31 fails for a second, later hold: it replaces the first one. Hold at 2, then at 6: frames 4 to 7 should be 2.
- `Param.C31_negated_target`: C31 fails for a target event followed by a set value event: the hold removes the set value event after `tc` and leaves the target event as it is, so the parameter goes on approaching the target for ever. Target 8 from time 1 on, set value at 4, hold at 3: the target stays in the timeline without a cancel time. (With any strictly monotone function for `exp` the values after 3 are not constant; here `1 / (1 - x)`.)
- `Param.C31_target_partial`: C31 for an exponential approach with nothing scheduled after it: `cancel_and_hold_at_time(c)`, called `k` quanta after `set_target_at_time` for a time `c` that is not in the past, leaves the approach as it is up to half a frame before `c`, and from `c` on the parameter keeps the value of the approach at that time (both up to the tolerance within which a target counts as reached). Missing: a hold in the past (`C31_negated_past`), events after the target (`C31_negated_target`).
- `Param.C31_negated_past`: C31 is false for a hold in the past: the approach from 0 to 1 is at 1/2 at time 3; when `cancel_and_hold_at_time(1)` is called after that, the value jumps back to where it was at time 1, to 0.

### C32 Scheduled sources are sample accurate and end once

A constant source outputs its offset exactly for the frames whose time lies in [start, stop) and zero elsewhere, for all start/stop times, and the ended event is emitted at most once, and only after stop was reached or the source was destroyed after having been started.

*Approach* (`Verif/Source`): All histories of messages and blocks; per-frame specification; counting of `ended` events.

*Status*: partial. Proved in exact arithmetic for every history (samples, exactly-once ended event, tail). Negated for the f64 time accumulation (a frame starts late) and for stop() called after the end (the source plays again).

- `Source.C32_samples`: samples: after any calls of start and stop and any number of quanta, frame `i` of the next quantum, at time `t`, has the value of the offset parameter if `start ≤ t < stop`, with the times of the calls so far, and is zero otherwise. (`out = []` stands for a silent quantum.)
- `Source.C32_once`: in every history the ended event is sent at most once.
- `Source.C32_ended_only`: when the ended event is sent, the source was started, and either the quantum reaches the stop time, or the renderer is dropped at or after the start (or stop) time.
- `Source.C32_ended_sent`: the ended event has been sent after the quantum that reaches the stop time.
- `Source.C32_tail`: tail time: if `process` returns false (the node may be freed once the control side has dropped it), then without further calls all later quanta are silent.
- `Source.C32_negated_rounding`: In double precision the claim fails by a frame: the time of a frame is accumulated (`current_time += dt`), while the time of frame `n` is `n / sampleRate`. A source started at frame 5 (at 48 kHz, in the first quantum) is still silent at that frame.
- `Source.C32_negated_restart`: The samples follow the last call of `stop` even after the source has ended: a source that has ended (the event was sent) plays again after another call of `stop` with a later time, and no second event follows. In the Web Audio specification such a call has no effect.

### C33 Buffer playback at natural rate is bit exact, looping is periodic

Playing a buffer at its natural rate from the start, frame n of the output equals frame n of the buffer (n mod length when looping), regardless of buffer length in relation to the quantum size; afterwards output is silent; ended is emitted at most once.

*Approach* (`Verif/Source`): The fast track of the buffer source, refinement to `buffer[n % length]`.

*Status*: partial. Proved for every buffer, length, quantum size, waiting and playing time without duration, in exact arithmetic of times. Negated when a duration is given to a looping source.

- `Source.C33_natural_rate`: a source with default loop points and a buffer of the sample rate of the context, whose playback rate and detune give the natural rate, started at the beginning of a quantum (after `n` further quanta) or in the past (`n = 0`). The outputs of the `n` quanta are silent; then frame `i` of the `b`-th quantum is frame `b * count + i` of the buffer, modulo its length when looping, and silent after its end otherwise. The ended event is sent once the end of the buffer is reached, and not before. There is no panic.
- `Source.C33_ended_once`: in every history (any calls, rates, loop points and buffers) the ended event is sent at most once.
- `Source.C33_silent_after_end`: once the ended event has been sent every later quantum is silent, whatever is called.
- `Source.C33_negated_duration`: C33 is false when a duration is given: the duration is ten frames, but the looping source on the fast track compares the duration with the position in the buffer, which starts again with every loop, and plays whole quanta: twelve frames are heard.

### C34 Buffer source interpolates between neighbouring frames only

On the slow path every output sample is a convex combination of two adjacent buffer frames (or wraps to the loop start / extrapolates at the end as specified) and no index is out of bounds, whatever playback rate, detune, loop points, offsets and durations.

*Approach* (`Verif/Source`): The slow track: every index, for every state; no fault after any history if the loop points fit; negations.

*Status*: partial. Every sample is one of the listed combinations (for every state). No fault after any history provided the loop points fit; negated in six ways when they do not.

- `Source.C34_samples`: whatever the state, the loop points, the rate and the detune: every sample of a quantum is silence, a combination of two neighbouring frames with weights in `[0, 1]`, or one of the cases at the last frame.
- `Source.C34_no_fault_partial`: no quantum faults — no index out of bounds, no loop without end — after any history of calls and quanta, for every rate, detune, offset, duration, start and stop time and pair of sample rates, provided that a looping source has a non-empty buffer whose loop points fit into the buffer as counted by the code. What is missing to the full statement is exactly this proviso: see the negated statements.
- `Source.C34_negated_range`: The last but one sample of the example leaves the range of the buffer.
- `Source.C34_negated_backward`: C34 is false: playing backwards in a loop with the default loop points reads `buffer[length]`.
- `Source.C34_negated_rate`: C34 is false: the buffer has half the rate of the context and loops over its last frame. The loop start is converted to a frame number with the rate of the context.
- `Source.C34_negated_last`: C34 is false: the loop starts within the last frame.
- `Source.C34_negated_empty`: C34 is false: an empty buffer in a loop panics on the fast track.
- `Source.C34_negated_hang`: C34 is false: an empty buffer in a loop played backwards never returns on the slow track.
- `Source.C34_negated_rounding`: C34 is false in `f64`: a buffer of one second, a playback rate of 2^70 at 48 kHz. After the first frame the position is 2^70/48000, and taking one second off does not change it: the loop never ends.

### C35 DelayNode delays by exactly the requested time

The output of a delay node at frame n is the input at frame n - delay*sampleRate (linear interpolation between frames, silence before the beginning), for a delay up to maxDelayTime; inside a cycle the delay is at least one quantum; nothing else is ever played.

*Approach* (`Verif/Delay`): Writer and reader sharing the ring; invariant "slot k holds the quantum written k quanta ago", for every history.

*Status*: partial. Exact for every history with writer and reader (any layout changes, delay curves, cycles), in exact arithmetic; after the writer is freed the heard signal is characterised exactly: false (echo of old input, repeated quantum). Also false for a construction race and when f32 rounding of the maximum exceeds the ring.

- `Delay.C35_delay_partial`: for every number of quanta, every input with any changes of the channel layout, every delay curve, in or out of cycles and in any mixture of both: the output at frame `n` is the input at `n` minus the delay, between frames on the straight line; the input before the beginning is silence; the input is mixed to the layouts that followed; in a cycle the delay is at least a quantum. No index is out of bounds. The reader stays alive.
- `Delay.C35_ring_size`: the ring is large enough for every delay up to the maximum, for any capacity the allocator gives.
- `Delay.C35_shutdown_exact`: the end: exactly what is heard after the writer is freed. The reader goes on for `cap - 1` quanta and returns false in the last; it then reads, with a delay of at least a quantum, the quanta that the writer left in the ring: for every quantum that was not written any more the one that was written `cap` quanta before.
- `Delay.C35_shutdown_partial`: the end: with a delay of at least a quantum everything that has been written is heard at its time. What is missing to the full statement is the silence afterwards, see `C35_negated_echo`, and delays below a quantum, see `C35_negated_repeat`.
- `Delay.C35_negated_echo`: C35 is false at the end: the delay is one quantum, the ring has room for two. The writer is freed after three quanta with the samples 1 to 6. The delayed samples 5 and 6 are heard, and then the samples 1 to 4 a second time.
- `Delay.C35_negated_repeat`: C35 is false at the end: with a delay of zero the last quantum is heard a second time.
- `Delay.C35_negated_race`: C35 is false when a quantum is rendered after the reader is registered and before the writer is: the reader is then a quantum ahead. A delay of two quanta becomes a delay of one: 1, 2 is written in the second quantum (frames 2 and 3) and heard in the third.
- `Delay.C35_negated_max`: C35 is false in floating point: a maximum of 8 ms at 48 kHz is three quanta, the ring has four. The value of the parameter is an `f32`: 8 ms is rounded up, to more than 384 frames, and the address of the frame before the playhead is the last frame of the quantum that is being written: the future.

### C36 AnalyserNode time domain data is the most recent window

get_float_time_domain_data returns the last fftSize mono samples in order (zeros before the beginning of time), even while the rendering thread concurrently writes up to one quantum.

*Approach* (`Verif/Analyser`): Ring of relaxed atomics with release/acquire index, as a view-based memory model.

*Status*: partial. A read racing with a write can mix two quanta: negated with a relaxed-memory witness.

- `Analyser.C36_window_partial`: the index is loaded after any number of whole quanta `qs` of `N` samples and any part `part` of the next. Sample `i` of the window is loaded when any more samples `more` have been stored and published, or not, as long as the samples stored after the index was published are not more than a quantum. Whatever the load returns: it is sample `i` of the last `len` samples of the published quanta; zero for those before the beginning.
- `Analyser.C36_can_load`: There is always something to load: the statement above is not empty.
- `Analyser.C36_negated_tear`: C36 is false when the rendering thread writes more than one quantum while the data are copied. A ring for windows of four samples and quanta of two: the index is loaded after the samples 1 to 4, the first sample is loaded after two more quanta: it is the sample 7 instead of 1.

### C37 ScriptProcessorNode frames its input exactly

The input buffers delivered to onaudioprocess partition the input stream into consecutive chunks of bufferSize frames, and the buffer produced for a chunk is played back in order with constant latency.

*Approach* (`Verif/Script`): State machine of the renderer; the answers of the handler are part of the history.

*Status*: partial. Chunking, blocks and latency proved when the handler answers in time; late answers, a replaced output buffer and buffer sizes that are no multiple of the quantum are counterexamples.

- `Script.C37_input_chunks`: the event with number `t` carries the frames `t * bufferSize` to `(t + 1) * bufferSize` of the input stream, channel by channel; there is one event per full buffer.
- `Script.C37_output_blocks`: whatever arrives: the output of block `t + 2` is the effect of the messages that arrived in block `t + 1`, applied in order to silence, in the order of the quanta. The first two blocks are silent.
- `Script.C37_latency_partial`: constant latency: when the only message handled during block `t + 1` is the buffer `b` produced for chunk `t`, then quantum `j` of the output of block `t + 2` is quantum `j` of `b`. `_partial`: only for answers that arrive within one block; a later answer is played a block later, and an answer that shares its block with another is overwritten by it.
- `Script.C37_playback_time`: The time that the event with number `t` announces for the playback is one quantum before the frame at which its chunk is played when the answer is in time (frame `(t + 2) * bufferSize`).
- `Script.C37_negated_late`: C37 is false in general: the answer to the first chunk is late by one block and shares block 2 with the answer to the second: it is never played, block 3 plays the second.
- `Script.C37_negated_panic`: The field `output_buffer` of the event is public. An answer whose length is not a multiple of the quantum, and one with too many channels: `onmessage` panics on the rendering thread, outside of `catch_unwind`.
- `Script.C37_negated_odd_size`: `bufferSize` 300 is accepted (C51): a chunk has two quanta of 128, the last 44 frames are always zero. Here with quanta of two frames and a size of five.

### C38 Merger and splitter are inverse

Splitting a quantum into its channels and merging them again gives the original quantum; output channel i of the merger carries the (down-mixed) signal of input i and of no other input; splitter output i carries channel i or silence.

*Approach* (`Verif/Node`): Functional model of both `process` functions.

*Status*: proved. 

- `Node.C38_merger_ok`: The merger never faults, and its output has one channel per input unless all inputs are silent.
- `Node.C38_merger`: channel `i` of the output is the signal of input `i`, sample by sample.
- `Node.C38_merger_independent`: no other input has an influence on channel `i`.
- `Node.C38_splitter`: output `i` of the splitter is mono and carries channel `i` of the input, or silence when the input has no such channel.
- `Node.C38_split_merge`: splitting in as many outputs as there are channels and merging gives the same samples; when the input is not silent also the same number of channels.

### C39 WaveShaper evaluates its curve inside bounds

Every output sample is the piecewise linear interpolation of the curve at the clamped input position; it never reads outside the curve and always lies between the minimum and maximum of the curve.

*Approach* (`Verif/Node`): Functional model; spec `OnCurve` is the piecewise linear function through the points.

*Status*: partial. Proved without oversampling (see C92); an empty curve panics and curves beyond 2^24 points are indexed inexactly in f32.

- `Node.C39_apply_curve`: `apply_curve` never reads outside of the curve and evaluates the piecewise linear function at the clamped position.
- `Node.C39_bounds`: the output lies between the smallest and the largest value of the curve.
- `Node.C39_node`: the node with a curve that the renderer accepted. No fault; every sample of the output is on the curve at the position of the sample of the input, except that a silent input whose middle value is below the threshold `eps` gives silence, which then is off by less than `eps`.
- `Node.C39_no_curve`: Without a curve the node passes its input.
- `Node.C39_negated_empty`: C39 is false for the empty curve, which `set_curve` accepts: the renderer computes the index `0 - 1` when it receives the curve, in `onmessage`, on the rendering thread.
- `Node.C39_negated_long`: C39 is false in single precision for very long curves: with 16777219 points the index of the last point, computed as `(n - 1.) as usize` with `n` rounded to `f32`, is outside of the curve.

### C40 Gain scales every sample

The output of a gain node equals input times gain for each frame, up to an error of 1e-6 relative to the input, including the mute and pass-through shortcuts.

*Approach* (`Verif/Node`): Functional model.

*Status*: partial. The 1e-6 snapping of the gain makes the claim false for gains near 0 and 1; exact outside.

- `Node.C40_gain`: every sample of the output differs from the sample of the input times the gain by at most the threshold times the sample of the input; for the quantum lengths that exist (one value, or one per frame).
- `Node.C40_gain_exact`: outside of the two shortcuts the product is exact; a gain per frame has no shortcut.
- `Node.C40_negated_exact`: The output is not the exact product when a shortcut applies.

### C41 StereoPanner is equal-power

For mono input the sum of squared left and right gains is 1 for every pan value; pan -1/+1 route everything to one side; for stereo inputs pan 0 is the identity.

*Approach* (`Verif/Node`): Real analysis.

*Status*: proved. 

- `Node.C41_equal_power`: the gains have constant power for every position.
- `Node.C41_gains_nonneg`: The gains are never negative.
- `Node.C41_mono`: mono input. Left and right are the input times gains with constant power; at -1 everything is left, at 1 everything is right.
- `Node.C41_stereo`: stereo input. Pan 0 is the identity, at -1 and 1 everything is on one side, the sum is kept.
- `Node.C41_no_panic`: The panic cannot happen: the channel count of the node is 1 or 2 and its mode is not `max` (l.44-68), so that the graph mixes the input to at most two channels (`Mix.newCount` is the computation of the graph).

### C42 IIR filter satisfies its difference equation

For all inputs y[n]*a0 = sum b_k x[n-k] - sum_{k>=1} a_k y[n-k], across quantum borders; once the node reports the end of its tail all further output for silent input is zero.

*Approach* (`Verif/Filter`): Transposed direct form II; the state encodes the past (`Encodes`), invariant over all quanta.

*Status*: partial. A change of the channel count drops the state of the vanished channels: negated.

- `Filter.C42_difference_equation`: for all coefficients with `a[0] ≠ 0` and all sequences of quanta, silent or not, in which the quanta that are not silent have `m` channels: the samples of each channel satisfy the difference equation, across the borders of the quanta.
- `Filter.C42_tail_end`: when the filter reports the end of its tail, all output for silent input is silence from then on, and the filter goes on reporting the end.
- `Filter.C42_tail_kept`: while it does not report the end it returns `true`, so that the graph keeps it.
- `Filter.C42_negated_channels`: C42 is false when the number of channels changes: with a mono quantum between two stereo quanta the state of the second channel is lost. The second channel of the input is 4, 0, then nothing, then 0, 0: the output of the equation would be 4, 2, 1, 1/2, …

### C43 Biquad filters are stable and honour their frequency response landmarks

For every frequency, Q and gain, the coefficients computed by the biquad filter lie in the stability triangle (strictly, when 0 < f < nyquist), lowpass/lowshelf etc. have the specified gain at DC/Nyquist, and allpass has unit magnitude; the recursion computes the normalised difference equation.

*Approach* (`Verif/Filter`): Coefficients and response over ℝ/ℂ; recursion as a state machine; bounded output from strict stability.

*Status*: partial. All clauses proved for 0 < f < nyquist and all filters but the lowpass at f = 0, whose double pole on the unit circle is proved to give unbounded output. Exact arithmetic.

- `Filter.C43_stable`: strictly between 0 and the Nyquist frequency all filter types are stable, for every quality factor and gain.
- `Filter.C43_poles`: the same, in terms of the poles.
- `Filter.C43_ends`: At the ends all filters but the lowpass at zero have no poles: they are constant gains.
- `Filter.C43_lowpass`: lowpass: gain 1 at zero, 0 at the Nyquist frequency, and the quality factor in dB is the gain at the cutoff frequency.
- `Filter.C43_highpass`: highpass: gain 0 at zero, 1 at the Nyquist frequency, and the quality factor in dB is the gain at the cutoff frequency.
- `Filter.C43_bandpass`: bandpass: gain 0 at both ends, 1 at the centre.
- `Filter.C43_notch`: notch: gain 1 at both ends, 0 at the centre.
- `Filter.C43_allpass`: allpass: gain 1 at all frequencies.
- `Filter.C43_peaking`: peaking: gain 1 at both ends, the gain in dB at the centre.
- `Filter.C43_lowshelf`: lowshelf: the gain in dB at zero, gain 1 at the Nyquist frequency, half of the decibels at the corner.
- `Filter.C43_highshelf`: highshelf: gain 1 at zero, the gain in dB at the Nyquist frequency, half of the decibels at the corner.
- `Filter.C43_difference_equation`: for all sequences of quanta, silent or not, in which the quanta that are not silent have `m` channels, and all sequences of coefficients, the samples of each channel satisfy the difference equation, across the borders of the quanta, each frame with its own coefficients.
- `Filter.C43_coefficients`: each frame is computed with the coefficients of the parameter values of this frame.
- `Filter.C43_tail_end`: once the filter reports the end, silent input gives silence, and the end again.
- `Filter.C43_bounded`: with poles inside the unit circle, bounded input gives bounded output: there is a factor that depends only on the coefficients such that, for all lengths, all bounds and all inputs within the bound, all outputs are within the factor times the bound.
- `Filter.C43_negated_lowpass_zero`: C43 is false for the lowpass at frequency 0: it has a double pole on the unit circle, for every quality factor and sample rate.
- `Filter.C43_negated_bounded`: C43 is false for the lowpass at frequency 0: when the filter passes one sample with value 1, at the Nyquist frequency, and is then set to frequency 0, its output for silent input grows without bound: frame `n` is `n + 1`.
- `Filter.C43_detune`: `detune` shifts the frequency by cents: 1200 cents are an octave, shifts add up, zero does nothing, and the shift is continuous and scales with the frequency, which determines it.

### C44 Oscillator phase and table lookups stay in range

The oscillator phase stays in [0,1) for every frequency/detune curve below Nyquist and all table indices are within bounds; wave shapes stay within [-1,1] (sine interpolation, triangle, un-corrected square and saw).

*Approach* (`Verif/Source`): Phase as a state machine with a rounding parameter; wave tables; polyBLEP corrections.

*Status*: partial. Phase, lookups, range (also of the corrected shapes) and sample accuracy proved for every history in exact arithmetic. Negated: custom type without a wave, empty wave, f64 rounding of the phase to 1 (out of bounds panic), start times in the last frame of a block, a stop after the end restarts the oscillator.

- `Source.C44_phase`: phase: after any calls and any blocks, with any values of frequency and detune in each frame (also beyond the Nyquist frequency), the phase is in `[0, 1)`.
- `Source.C44_no_panic`: an oscillator whose custom type, if any, comes with a table that is not empty never panics in a block, whatever calls were made and blocks rendered before, for any frequencies; and all samples are within `[-1, 1]` if the tables are.
- `Source.C44_waveform`: a phase in `[0, 1)` gives a sample, no index is out of bounds, and samples are within `[-1, 1]` if the tables are.
- `Source.C44_sawtooth`: the sawtooth, with its correction, is within `[-1, 1]`.
- `Source.C44_square`: the square, with its corrections, is within `[-1, 1]`.
- `Source.C44_triangle`: the triangle is within `[-1, 1]`.
- `Source.C44_shapes`: triangle, sawtooth and square are the ideal waveforms at every phase at least one increment away from a jump (everywhere for the triangle, and for negative frequencies).
- `Source.C44_phase_sum`: a started oscillator that plays through a block. Frame `i` has the phase of the first frame plus the frequencies of the frames before it, times the sample period, modulo 1; frames with a frequency at or beyond the Nyquist frequency are zero, but count. The same holds for the phase that is left for the next block.
- `Source.C44_constant_partial`: an oscillator with constant frequency `f` below the Nyquist frequency that is started for the time `a`. After any history of calls and blocks, the sample at time `t` is that of the waveform at the phase `f * (t - a)`, modulo 1, for `t` between `a` and the times of all calls of `stop`; it is zero before `a` and from the time of the last call of `stop` on: the oscillator is sample accurate, also between frames and across blocks. Missing from the full claim: start times within less than one frame before the begin of a block, see `C44_negated_start`.
- `Source.C44_ended_once`: the ended event of an oscillator is sent at most once, whatever calls are made.
- `Source.C44_normalize`: a normalised table has the length of the table, is within `[-1, 1]`, and reaches 1 or -1 unless all samples are zero; it has the shape of the table: it is the table times one positive factor.
- `Source.C44_wave_table`: a table that is made by `PeriodicWave::new` is not empty, so that an oscillator can play it, and it is within `[-1, 1]` when it is normalised.
- `Source.C44_default_wave`: without coefficients the wave is one period of the sine.
- `Source.C44_no_offset`: the offset, the coefficient 0, is ignored.
- `Source.C44_sine_error`: A sample of the sine table, looked up with linear interpolation, differs from the sine by at most the distance between two entries, for any size of the table. (`generate_sine` with a table of exact values.)
- `Source.C44_negated_custom`: C44 is false for a custom type without a wave, which the constructor accepts: the first block panics.
- `Source.C44_negated_empty`: C44 is false for the default wave, which is empty.
- `Source.C44_negated_rounding`: C44 is false with the rounding of `f64`: a small negative frequency makes the phase 1, and the next lookup is out of bounds.
- `Source.C44_negated_start`: The phase of an oscillator whose start time is within less than a frame before the begin of a block is wrong: the oscillator starts with phase 0 at the begin of the block, while at a place within a block it is sample accurate.
- `Source.C44_wave_coefs`: a wave is refused exactly if only one coefficient is given or the two lists differ in length; the coefficients are those given, and zero for the list that is not given.
- `Source.C44_series`: the table is the Fourier series of the coefficients, sampled at equal distances over one period, times a positive number that is 1 without normalisation.
- `Source.C44_wave_error`: the sample that an oscillator plays with a periodic wave differs from the Fourier series at its phase (times the factor of the normalisation) by no more than half of what the series can change between two entries of the table.
- `Source.C44_negated_restart`: An oscillator that has ended plays again after another call of `stop` with a later time, with the phase at which it stopped. In the Web Audio specification such a call has no effect.
- `Source.C44_tune`: an oscillator with a start time, possibly a stop time, any type or wave, and any automation of its frequency and detune (so that frame `i` has the computed frequency `F i`). It does not panic, and every sample is known: silence before the first frame at or after the start time and from the stop time on; between them the waveform at the phase that is the sum of the frequencies of the frames played so far (frames whose frequency is at or beyond Nyquist are silent but count). Start times between two frames are honoured, but for those between the last frame of a quantum and the next quantum.

### C45 Compressor look-ahead delay is constant and its tail is complete

The compressor output is its input delayed by a constant number of quanta (about 6 ms), multiplied by the gain; every sample that enters is eventually output even when all handles are dropped.

*Approach* (`Verif/Compressor`): Ring of quanta with an arbitrary gain stage.

*Status*: partial. Exact arithmetic; abstract gain stage, ring capacity as requested. Delay proved for all inputs and sizes. The end of the stream is characterised exactly; the claim fails for short inputs and inputs with a rest near the end (negations), and is proved when the last R-1 quanta are not silent.

- `Compressor.C45_delay`: for every input, the output is the input `R - 1` quanta before, times the gain of the moment, frame by frame and channel by channel; silence at the beginning. The detector sees the input without delay.
- `Compressor.C45_tail_exact`: the end, exactly: when the inputs of a dropped compressor end, it still emits what is in its delay line, up to the first silent quantum.
- `Compressor.C45_tail_partial`: partial: if the input ends with at least `R - 1` quanta that are not silent, the whole of it is emitted, then one quantum of silence, then the node can go. Missing: an input that is shorter, or that has a silent quantum among its last `R - 1`.
- `Compressor.C45_latency`: the delay is the smallest number of quanta that lasts at least 6 ms.
- `Compressor.C45_negated_tail`: C45 fails at the end: a sound of one quantum, into a compressor with the delay of two quanta, whose handle is dropped; the gain is one. All that the compressor emits in its life is silence.
- `Compressor.C45_negated_rest`: C45 fails at the end: a rest within the last quanta of a sound cuts off what follows.

### C46 Convolver tail is complete per channel

After the input becomes silent the convolver outputs the complete reverb tail of each channel and then reports the end of its tail.

*Approach* (`Verif/Convolver`): Engines as exact causal convolutions; per-channel history.

*Status*: partial. fft_convolver replaced by an exact causal convolution. Complete for responses with two or four channels and any mix of mono, stereo and silent input; for mono responses only if the input keeps its number of channels. Negations: right tail lost after a stereo sound with a mono response, and replayed at the next stereo sound.

- `Convolver.C46_stereo_response`: an impulse response with two channels. Whatever happened before it was set, and whatever the inputs, mono, stereo or silent, each channel of the output is the complete convolution of its channel of the input; when the node reports the end of its tail, nothing is left.
- `Convolver.C46_true_stereo_response`: an impulse response with four channels ("true stereo").
- `Convolver.C46_mono_response_partial`: partial: an impulse response with one channel, and inputs that always have the same number of channels, `m`. Missing: inputs that change their number of channels; silence, in the default channel count mode, has one channel.
- `Convolver.C46_nothing_left`: what the flag means: if the last `L` samples of a signal are zero and only silence follows, the rest of the convolution is zero
- `Convolver.C46_ends`: the tail ends. Whatever was played before (one or two channels, changing at will): after silent quanta that together are at least as long as the response, every silent quantum that follows is answered by silence and reported as the end.
- `Convolver.C46_no_panic`: the render thread does not panic: with a response that `set_buffer` accepts (1, 2 or 4 channels) and inputs of one or two channels, changing at will.
- `Convolver.C46_negated_right_tail`: C46 fails with a mono response: a stereo sound whose right channel has the only impulse, in the last frame, followed by silence. The right channel of the tail is lost: mono silence only runs the left engine.
- `Convolver.C46_negated_stale_tail`: C46 fails with a mono response: what was lost of the tail comes out when the next stereo sound begins, however long after.
- `Convolver.C46_no_response`: without a response the input is passed through, and the node is finished when its input is silent.

### C47 Playback statistics are exact counters

Underrun counters equal the number of maximal runs of underrun callbacks and their duration; min <= average <= max latency in every snapshot; ratio figures are within [0,1].

*Approach* (`Verif/Stats`): One step per atomic operation; exactness for sequential histories, per-counter exactness for all interleavings, negations for snapshots.

*Status*: partial. Every atomic operation is a step; counters exact for all histories, per-counter exact and monotone in all interleavings with any number of threads. The consistency of one snapshot under concurrency is false in the code (ratio 3, average outside [min,max], permanently wrong average after a racing reset, phantom zero latency): proved as negations.

- `Stats.C47_exact`: after every history of calls the counters are exact: number of callbacks, times, number of callbacks over their budget, time over budget, and number of maximal runs of such callbacks. Snapshots, resets and peaks between do not change them.
- `Stats.C47_latency`: latency since the last reset. The sum, the number, the smallest and the largest are those of the latency known at the reset (zero if none) and the latencies recorded since. Every history of an `AudioPlaybackStats` has a reset, the constructor makes one.
- `Stats.C47_ordered_partial`: when the snapshot does not overlap a reset or a record, the smallest latency is at most the average and the average at most the largest, also in seconds, whatever monotone rounding the floats have.
- `Stats.C47_ratio_partial`: two snapshots at quiet times: the ratio of late callbacks is the exact one of the callbacks between, and lies in [0, 1], also after rounding and in the event, where it is zero only without late callbacks.
- `Stats.C47_load`: the average load between two snapshots at quiet times is exact: time needed by the callbacks between divided by their time available.
- `Stats.C47_peak`: the peak load of an interval: two calls of `take_peak_load` and nothing of the kind between. The second obtains the largest load (duration divided by budget, in millionths, rounded down) of the callbacks between; every load is counted in exactly one interval. The peak is one memory location, so this covers all interleavings.
- `Stats.C47_concurrent_partial`: interleavings, partial: in every interleaving with any number of threads taking snapshots, peaks and resets, * every counter of every snapshot is exact for the first `k` callbacks, for some `k` (which can differ between the counters of one snapshot, see `C47_negated_ratio`), * later snapshots of a thread are not smaller in any counter, so that the differences of `render_capacity_event` are exact, * when the rendering thread has finished, the counters are exact, nothing is lost. Missing: the counters of one snapshot belong together.
- `Stats.C47_min_max_partial`: interleavings: as long as nobody resets (after the constructor), the minimum is at most the maximum in every snapshot of every thread, in every interleaving. Missing: the average (`C47_negated_snapshot`), and resets (`C47_negated_reset_order`).
- `Stats.C47_exposed`: what a user sees. While the context runs, the values shown by a query at time `now` were read at a time `t` less than a second before (or right now), whatever happened before; while it does not run, they do not change.
- `Stats.C47_negated_phantom_zero`: C47 in its intended meaning fails at the start: the constructor resets before a latency is known, so that zero counts as a recorded latency. With latencies 10 and 20 the minimum is 0 and the average is 10.
- `Stats.C47_negated_ratio`: C47 is false for snapshots taken while a callback is recorded: the number of callbacks is read first, the number of late ones later. The difference of two snapshots shows one callback and three late ones: a ratio of 3.
- `Stats.C47_negated_snapshot`: C47 is false for a snapshot during `record_latency_ns`: all latencies are 100, the average is 33 or 200.
- `Stats.C47_negated_reset`: C47 is false after a reset that overlaps `record_latency_ns`: the damage stays. Both calls are complete when the snapshot is taken; the average, 200, is above the maximum.
- `Stats.C47_negated_reset_order`: A reset that overlaps `record_latency_ns` and a snapshot: the minimum, 150, is above the maximum.
- `Stats.C47_exposed_fresh`: what is shown was true at an earlier call (or is the initial value, while nothing was updated); on a running context it is less than a second old.
- `Stats.C47_exposed_stable`: within a second, and without `reset_latency`, the exposed values change at most once.
- `Stats.C47_exposed_paused`: while the context is not running nothing changes, except by `reset_latency`.

### C48 AudioBuffer copy operations are exact and bounded

copy_from_channel(src, ch, off) then copy_to_channel(dst, ch, off) returns the written samples; nothing outside [off, off+len) nor any other channel changes; cloned buffers are isolated; out-of-range offsets write nothing.

*Approach* (`Verif/Buffer`): Lists for the values, reference counted heap for the sharing.

*Status*: proved. Copy operations for all lengths, offsets and channels over value-semantics buffers; sharing of channel data between clones is a separate heap model (Arc counts, make_mut) refined to value semantics.

- `Buffer.C48_copy_from`: C48 `copy_from_channel_with_offset` changes the elements of the destination that have a frame in the buffer at their index plus the offset, to exactly that frame, and no others.
- `Buffer.C48_copy_to`: C48 `copy_to_channel_with_offset` changes the frames of the channel from the offset on that have an element in the source, to exactly that element. No other frame and no other channel changes, and neither do the length, the number of channels and the sample rate.
- `Buffer.C48_panic`: C48 The copy operations panic exactly for a channel that does not exist.
- `Buffer.C48_roundtrip`: C48 Samples written to a channel are read back: as many as fit between the offset and the end of the buffer.
- `Buffer.C48_out_of_range`: C48 An offset at or beyond the end copies nothing, in either direction.
- `Buffer.C48_construct`: C48 `AudioBuffer::new` is silent in every channel; `AudioBuffer::from` contains the given samples; both have channels of equal length.
- `Buffer.Share.C48_value_semantics`: C48 After every sequence of creating, cloning, dropping and writing, every buffer contains the samples it would contain if no two buffers (and no two channels) ever shared memory.
- `Buffer.Share.C48_write_is_local`: C48 Writing through a buffer modifies the channel written to and nothing that any other buffer, or any other channel of the same buffer, contains.

### C49 Resampling keeps duration, endpoints and range

AudioBuffer::resample to another rate yields ceil(length*ratio) frames, the first and last sample are preserved, every sample is a finite convex combination of two neighbouring source samples; resampling to the same rate is the identity.

*Approach* (`Verif/Buffer`): Any monotone rounding of the index computation that is exact on integers.

*Status*: partial. Convexity, endpoints and identity are proved for every monotone rounding of the index computation that is exact on integers (f64 and f32 qualify), for at least two target frames. The code violates the property otherwise: a single target frame is NaN, and with f64 rounding the length can be one frame more than ceil(length*ratio).

- `Buffer.C49_convex_partial`: C49 Resampling to another rate succeeds, keeps the number of channels, gives every channel `targetLength` frames, and every frame is a convex combination of two neighbouring source samples: finite and between the two. (Provided there are at least two target frames.)
- `Buffer.C49_endpoints_partial`: C49 The first and the last sample of every channel are preserved. (Provided there are at least two target frames.)
- `Buffer.C49_identity`: C49 Resampling to the same rate (or one that differs by at most 0.1 Hz) leaves every sample as it is, and so does resampling of an empty buffer.
- `Buffer.C49_exact_partial`: C49 In exact arithmetic there are `⌈length * ratio⌉` frames, at least two if the new length in seconds exceeds one new frame, and frame `i` is read at the proportional position in the source.
- `Buffer.C49_negated_single_frame`: C49 negated: a buffer that is resampled to a single frame becomes NaN, whatever it contains.
- `Buffer.C49_negated_single_frame_witness`: C49 negated: one frame at 48 kHz, resampled to 44.1 kHz, is NaN.
- `Buffer.C49_negated_length`: C49 negated: with `f64` rounding, 147 frames at 44.1 kHz are 161 frames at 48 kHz instead of `147 * 48000 / 44100 = 160`.

### C50 Media streams are re-chunked without loss

A media stream delivered in arbitrary chunk sizes is played as the same sample sequence cut in quanta of 128 frames, padded with zeros at the end only.

*Approach* (`Verif/Buffer`): Re-chunker, renderer, track; concurrency of the track in small steps.

*Status*: partial. Re-chunking without loss, the renderer and the track with one consumer or consumers polled equally often. Violated by the code: errors discard collected samples, a channel count change panics, chunks of another rate are resampled one by one, a second consumer may miss chunks, and two consumers polled at the same time by different threads both lose one chunk and get another twice.

- `Buffer.C50_rechunk_partial`: C50 Whatever the sizes of the chunks of a stream, `Resampler` delivers quanta of exactly `len` frames, whose samples are those of the resampled chunks one after the other, then less than a quantum of zeros (if no chunk is empty), and then the end. Missing for the full property: chunks of another sample rate are resampled one by one, the stream must not contain an error and the number of channels must not change; see the negations below.
- `Buffer.C50_same_rate_partial`: C50 A stream at the rate of the context is delivered sample by sample as it is.
- `Buffer.C50_render`: C50 The renderer outputs the quanta of the stream one by one, keeps itself alive until the last one, then outputs silence and reports that it has finished.
- `Buffer.C50_negated_error`: C50 negated: an error in the stream discards the samples that were already collected for the quantum.
- `Buffer.C50_negated_channels`: C50 negated: a change of the number of channels within a quantum panics.
- `Buffer.C50_negated_resampled`: C50 negated: a stream at another rate is resampled chunk by chunk. Delivered in chunks of one frame it is NaN throughout, delivered in one chunk it is not.
- `Buffer.Track.C50_single_consumer`: C50 The only consumer of a track gets every chunk, in order, and then nothing.
- `Buffer.Track.C50_lockstep`: C50 Consumers that are polled equally often, once per round in any order, all get every chunk: the round after `r` rounds delivers chunk `r` to each of them, or the end.
- `Buffer.Track.C50_in_order_partial`: C50 Whatever the order of polling, a consumer gets chunks in the order of the stream and none of them twice: what it got is a sublist of the chunks. Missing for the full property: that nothing is left out, see `C50_negated_consumers`.
- `Buffer.Track.C50_negated_consumers`: C50 negated: a consumer that needs two chunks at once makes another consumer of the same track miss the first of them; and the consumer that reaches the end first takes the last chunk from the other.
- `Buffer.Track.C50_close`: C50 After `close` a consumer gets at most the latest chunk, if it has not seen it yet, whatever the order of polling; and the track has ended as soon as some consumer has been polled twice.
- `Buffer.Track.C50_uninterrupted`: A call that is not interrupted is `St.next`: at most five steps after which the thread is idle again.
- `Buffer.Track.C50_negated_race`: C50 negated: two consumers that are polled at the same time both lose the first chunk and both get the second one twice, although they are polled equally often.
- `Buffer.C50_error_skipped`: C50 An error at a quantum border (for example at the very beginning) is reported once, and the stream goes on as if it was not there.

### C51 Argument validation accepts exactly the documented values

Constructors and setters accept exactly the documented sample rates, channel counts, buffer sizes, fft sizes and times, and reject everything else with a panic on the calling thread.

*Approach* (`Verif/Valid`): Every assertion as a Boolean function on IEEE values; the spec is written from the documentation.

*Status*: partial. Exact acceptance theorems for every validator, over all values incl. NaN and infinities; channel configuration as a state machine per node kind, exact for every call sequence. False for the script processor (size 300 accepted, 0 outputs panics on the render thread), periodic wave (>8192 components accepted) and the splitter (explicit count 6 ignored): proved as negations.

- `Valid.C51_sample_rate`: sample rates, in hertz: the finite values of [3000, 768000].
- `Valid.C51_counts`: channel counts, channel indices and lengths.
- `Valid.C51_time`: times: finite and not negative.
- `Valid.C51_offline`: an offline context and an audio buffer.
- `Valid.C51_suspend`: the time of `suspend`: before the end of the rendering.
- `Valid.C51_fft_size`: fft sizes: exactly 32, 64, ..., 32768.
- `Valid.C51_ranges`: smoothing constant and cone gain: [0, 1]; the maximal delay: between 0 and 180 s.
- `Valid.C51_param`: the values given to an `AudioParam`.
- `Valid.C51_iir`: the coefficients of an IIR filter. A NaN is not equal to zero, and is accepted.
- `Valid.C51_convolver`: an impulse response: 1, 2 or 4 channels, and the sample rate of the context.
- `Valid.C51_script_size_exact`: The buffer sizes which a script processor really accepts: 0, and every size up to 16384 whose quotient by 256 is a power of two.
- `Valid.C51_script_partial`: C51 for the script processor, partial: all documented sizes and channel counts are accepted, no others below 256 or above 16384, and among the multiples of 256 exactly the documented ones. Missing: sizes between, see `C51_negated_script_size`.
- `Valid.C51_negated_script_size`: C51 is false for the script processor: 300 is not a documented size, and is accepted; so is an undocumented size for each power of two.
- `Valid.C51_negated_script_outputs`: No output channels are documented as valid, and accepted; the panic comes on the rendering thread, at the end of the first chunk, instead of the calling thread.
- `Valid.C51_periodic_wave_partial`: C51 for periodic waves, partial: the documented conditions on lengths, except the one on more than 8192 components.
- `Valid.C51_negated_periodic_wave`: C51 is false for periodic waves: the documentation promises a panic for more than 8192 components, any number is accepted.
- `Valid.C51_panner`: C51 for the panner: exactly the not negative (positive for the maximal distance) values; infinity is one of them. The comment of `set_max_distance` only excludes negative values, zero panics too.
- `Valid.C51_setter`: a setter is accepted exactly if the configuration it asks for is allowed, and then the configuration is that one. (The listener is not a node for the user, its setters always panic.)
- `Valid.C51_constructor`: constructors. With options that are not the default of a splitter, they are accepted exactly if they are allowed, and then they are the configuration of the node.
- `Valid.C51_created`: every constructor gives an allowed configuration (the channels of the device are at most its maximum).
- `Valid.C51_negated_splitter`: C51 is false for the splitter: an explicit channel count of 6, with two outputs, is accepted and replaced.
- `Valid.C51_invariant`: after every sequence of calls, accepted or not, the configuration is allowed.
- `Valid.C51_answers`: the answers are exactly right: call number `t` panics if and only if it asks for a configuration that is not allowed, given the calls before.
- `Valid.C51_panner_no_panic`: With C51 the panic of the stereo panner for more than two channels cannot be reached: whatever is called, before and after construction, the input which the graph mixes for the node has at most two channels.

### C52 Closed contexts stay closed

State transitions observed through the API follow suspended <-> running -> closed; once closed no control message reaches the render thread.

*Approach* (`Verif/Control`): State machine of control and render side with overlapping operations.

*Status*: partial. Without overlapping operations a closed context stays closed and the operations have the documented effect; false in general: closing before the start message is processed, or while an async suspend is under way (negations).

- `Control.State.C52_closed_partial`: C52 for the synchronous API on a context that has been started: whatever calls are made and however the render thread makes progress, once the state is `closed` it remains so, and nothing is added to the queue of the render thread any more. Missing for the full claim: contexts closed before the render thread has started, and the asynchronous API; there it is false, see `C52_negated_startup` and `C52_negated_async`.
- `Control.State.C52_effect_partial`: no waiting forever (synchronous API): a call on a started context puts its message, if any, into the queue of the render thread (not into the buffer of a suspended context), so that it is processed after at most as many steps of the render thread as there are messages; then the state is what was asked for.
- `Control.State.C52_negated_startup`: C52 fails: closing a context that has not been started yet (state `suspended`, the startup message still in the queue) and then letting the render thread run: the context is `running` again.
- `Control.State.C52_negated_async`: C52 fails: `close` called while an asynchronous `suspend` is under way. The close request is put into the buffer for suspended contexts; the render thread can process all messages and the close request is never among them, so the caller waits forever. After `resume` the context is closed and then `running` again.

### C53 A node's input holds exactly what its upstream nodes produced in this quantum

When a node is processed, each of its inputs is the mix of exactly the output buffers its connected upstream nodes have produced in the same render quantum: nothing from earlier quanta, nothing twice.

*Approach* (`Verif/Graph`): The render loop with arbitrary processors.

*Status*: partial. Data flow within a quantum proved for all processed nodes; false for muted nodes, whose inputs accumulate.

- `Render.C53_inputs_are_this_quantum`: C53 (data flow). When node `i` is processed in a quantum, its processor state and old outputs are those of the quantum start, and what it finds at input `p` is what was there at the start of the quantum (silence, see `C53_inputs_reset`) mixed, in processing order, with exactly the signals that the nodes processed before it have produced in this very quantum.
- `Render.C53_inputs_reset_partial`: C53 (reset). After a quantum all inputs of every node that has been processed in it are silent, and none of them is marked as having input.
- `Render.C53_negated`: C53 is violated for nodes left out of the order: a gain (id 12, processor 0) is part of a delay-free cycle with node 13 and is fed by source 11 (signal 5). While the cycle exists its input accumulates one signal per quantum; when the cycle is removed after three quanta the destination receives 20 instead of 5 in one quantum.

### C54 A failing node constructor does not harm the audio engine

If constructing a node panics on the control thread (invalid options), the context keeps rendering.

*Approach* (`Verif/Graph`): System model with failing constructors.

*Status*: partial. False: a failing constructor can kill the render thread; harmless when the id is inside the node store.

- `Render.C54_negated`: C54 (constructing a node with invalid options does not harm the engine) is violated: 53 nodes exist or have existed, the constructor of the 54th panics on the control thread (its id is 64), and the render thread dies on the message announcing the dropped handle. No processor misbehaves.
- `Render.C54_failed_construction_partial`: the part that holds: the message announcing a failed construction is harmless as long as the id lies within the node store of the render thread. (Missing: ids beyond it.)

### C55 A muted destination is silent

When the destination becomes part of a delay-free cycle and is therefore muted, the context outputs silence.

*Approach* (`Verif/Graph`): Negation by a concrete history.

*Status*: partial. False: a muted destination repeats its last buffer (negation). Proved: it emits exactly the buffer it was left with, so it is silent if that was silent.

- `Render.C55_negated`: C55 (a muted destination is silent) is violated: the destination plays 5; then it is made part of a delay-free cycle, is muted, and keeps emitting the last buffer in every quantum.
- `Render.C55_muted_partial`: the part that holds: a muted destination emits the buffer it was left with, and keeps it. So it is silent if its last output was silent, in particular if it has never been processed. (Missing: silence in all other cases.)

### C56 Changing the output device returns

AudioContext::set_sink_id_sync returns, and control messages can be sent afterwards, whatever was scheduled before.

*Approach* (`Verif/Control`): Readers-writer lock; negation: stuck for ever, from a reachable state.

*Status*: partial. Holds when the sink change finds no pending control messages; otherwise the calling thread deadlocks on its own lock (negation, with the state reachable).

- `Control.Sink.C56_quiet_partial`: C56 when no messages are pending: the call can always be completed, by its own step.
- `Control.Sink.C56_negated`: C56 fails: if `set_sink_id_sync` finds messages that the render thread has not processed yet, the thread blocks forever, and from then on no thread can send a control message: in all continuations.
- `Control.Sink.C56_reachable`: such a state is reachable

### C57 Value curves are read within bounds

Rendering a setValueCurveAtTime automation never reads outside the curve: for every accepted start time, duration and curve (two or more values), and every render time, the render thread does not panic.

*Approach* (`Verif/Param`): Index of the curve for every time in exact arithmetic; negation with `f64` rounding.

*Status*: partial. In bounds in exact arithmetic; a concrete f64 case panics.

- `Param.curveTotal_exact`: In exact arithmetic a value curve is read within its bounds at all times.
- `Param.C57_negated`: C57 is false in `f64`: a curve of 4 values from time 0 with duration 0.10158730158730159 (the double next to the time of frame 4480 = 35 * 128 at 44.1 kHz) is read at index 4 in the first frame of quantum 35. The render thread panics.
- `Param.C57_rounded_hull`: C57 with the roundings: unless the index is out of bounds, the value of a curve lies within the smallest and the largest of the given values.

### C58 Exponential ramps interpolate geometrically

During exponentialRampToValueAtTime the value at time t is v0 (v1/v0)^((t-t0)/(t1-t0)), between the end values, whatever the alignment of the ramp to render quanta; afterwards it is v1.

*Approach* (`Verif/Param`): Over ℝ, with `rpow`.

*Status*: partial. Exact in real arithmetic for values of the same sign, positive or negative, at least half a frame before the end; a value of zero is the negated case.

- `Param.C58_exact_partial`: in a schedule of set value events and ramps in time order, with event `(t0, v0)` directly before the exponential ramp `(t1, v1)`, `v0` and `v1` both positive or both negative, the value of the frame at time `t` is exactly `v0 (v1 / v0) ^ ((t - t0) / (t1 - t0))` if `t0 ≤ t` and `t + dt/2 < t1` (`t < t1` if `t1` is the time of a frame): it has the sign of `v0`, lies between `v0` and `v1`, and the logarithm of its size is linear in time. Missing: the half frame before `t0` and `t1`.
- `Param.C58_negated_zero`: C58 fails for values of different sign or a start at zero: the code does not ramp but holds the value and jumps at the end time. (The specification of Web Audio asks for this.)
- `Param.C26_C27_new`: C27, C58 for the parameter of a new node (of any default value): its value is set to `w` by the constructor, the events `es` are scheduled in any order, then quanta are rendered. Nothing panics, and in every frame of every quantum the value is that of the envelope of the events in time order: set values hold, ramps are lines or exponential curves from the event before, with the times of events rounded to the nearest frame.

### C59 The compressor applies the curve that its parameters describe

The compression curve leaves levels below the threshold alone, has slope 1/ratio above threshold + knee and slopes between 1/ratio and 1 in between (continuous, never louder). The gain follows the curve with the attack time constant when it goes down and the release time constant when it goes up, converges for a steady level, and never exceeds the makeup gain.

*Approach* (`Verif/Compressor`): Over ℝ: curve, level, detector.

*Status*: proved. Over the reals (no rounding, no NaN).

- `Compressor.C59_curve`: the curve of the code is a compression curve with the threshold, the knee and the ratio that were asked for.
- `Compressor.C59_never_louder`: the curve is monotone, continuous, and never above the identity.
- `Compressor.C59_gain_range`: over the frames of a quantum, if the curve never asks for more than `A` dB, nor was it so before, the gain stays within `A` dB below the makeup gain, and never is above it.
- `Compressor.C59_below_threshold`: a signal that stays below the threshold is not compressed: every gain is the makeup gain.
- `Compressor.C59_steady`: a steady level. The distance of the detector to the attenuation decays with the attack time when the gain has to go down, with the release time when it has to go up.
- `Compressor.C59_time_constant`: the meaning of the attack and release times: after that time the distance is down by the factor `e`.
- `Compressor.C59_converges`: with a steady level the gain converges to the one of the curve.
- `Compressor.C59_level`: the level of a frame is the largest absolute value over its channels.
- `Compressor.C59_output`: the node as a whole, with params that change from quantum to quantum: every sample of the output has the sign of the input sample `R - 1` quanta before, and at most its size times the makeup gain.

### C60 Makeup gain and metering of the compressor

The makeup gain is the 0.6 power of the inverse of what the compression curve makes of full scale, hence never attenuates; reduction is the gain reduction in dB, never positive and 0 for silence.

*Approach* (`Verif/Compressor`): Over ℝ; negations at the default parameters.

*Status*: partial. Over the reals. Makeup gain as specified only when threshold + knee <= 0; it fails for the defaults and can attenuate (negations). reduction includes the makeup gain, so that it is positive for silence (negation).

- `Compressor.C60_makeup_partial`: partial: when the knee ends at or below full scale, the makeup gain is the one of the specification and at least one. Missing: `threshold + knee > 0`, which the defaults are.
- `Compressor.C60_reduction_partial`: partial: metering. `reduction` is the gain of the last frame, makeup included; it is at most the makeup gain, and without the makeup gain it is minus the detector.
- `Compressor.C60_negated_defaults`: C60 fails for the defaults: 4.95 dB instead of 5.28 dB.
- `Compressor.C60_negated_attenuates`: C60 fails: with the threshold at 0 dB and a knee of 40 dB nothing up to full scale is compressed, yet the makeup gain makes everything 11.4 dB softer.
- `Compressor.C60_negated_reduction`: C60 fails: a compressor with the default params that gets silence reports a reduction of +4.95 dB, not 0.

### C61 Normalised convolution has a level of its own

With normalize on, the scaled impulse response has a power that depends only on the sample rate and on whether it has four channels, not on the level at which the response was recorded; for very soft responses the gain stays bounded.

*Approach* (`Verif/Convolver`): Over ℝ.

*Status*: proved. Over the reals (no overflow, no NaN).

- `Convolver.C61_level`: a response that is not too soft is brought to a power that only depends on the sample rate and on whether it has four channels.
- `Convolver.C61_level_independent`: the level at which the response was recorded does not matter.
- `Convolver.C61_bounded`: protection against overload: the gain is bounded, whatever the response.

### C62 A scheduled buffer source plays the right position at every frame

A buffer source that is given a buffer, started at a time with an offset and a duration, and possibly told to stop, is silent before the start time, from the stop time on, and once the duration is used up. At every other frame it plays the buffer at the offset plus the time played so far weighted with playback rate and detune, folded into the loop once the loop has been entered: the frame itself when the position is a frame of the buffer, the linear interpolation of the two neighbours otherwise. It does not matter whether the copying or the interpolating code path is taken, nor when it changes.

*Approach* (`Verif/Source`): `Plan` says, from the arguments of the calls alone, which buffer position a frame shows; both tracks follow it by an invariant over blocks.

*Status*: partial. Both tracks, exact arithmetic, the tolerant comparisons (crate almost) taken as equality; the interval after the last frame of a loop is covered by C34. False for start times strictly between the last frame of a quantum and the next quantum (negation), where the sub-frame offset is lost; looping with a duration on the fast track is false by C33_negated_duration.

- `Source.C62_position_partial`: a source created with any loop options; after some quanta it gets its buffer and is started at time `t` with any offset and duration, and possibly told to stop; then `play.length` quanta are rendered in which playback rate and detune vary from quantum to quantum. Every frame is what the plan says: silent before the start time, from the stop time on and once the duration is used up; otherwise read at the offset plus the sum of the rates so far (folded into the loop once the loop is entered), exactly if this is a frame of the buffer, and by linear interpolation between the neighbours if not. This holds on the fast and the slow track and across changes between them. Provisos: the start time is not strictly between the last frame of a quantum and the next quantum (see `C62_negated_start`), a looping source that can take the fast track has no duration (see `C33_negated_duration`), a source that does not loop does not change its direction (it ends at the end of the quantum in which the position leaves the buffer), and the tolerant comparisons of the code are exact.
- `Source.C62_negated_start`: C62 is false for a start time strictly between the last frame of a quantum and the next quantum: the first frame after the start time is the first one of the second quantum, half a frame late. The position should be half a frame, giving 3/2 (as in the example above), but the start time is moved to the quantum and 1 is heard.

### C63 Distance gain of the panner

The gain of the distance models is the one of the Web Audio API for every distance and every setting the API accepts: a number between 0 and 1, 1 up to the reference distance, never growing with the distance.

*Approach* (`Verif/Panner`): Over ℝ with NaN as an explicit value; the spec writes the three formulas by cases.

*Status*: partial. The formulas hold unless refDistance is 0 or, for the linear model, equals maxDistance: there the gain is NaN or 1 (C63_negated_nan, C63_negated_ref). Over the reals; infinite settings are not modelled.

- `Panner.C63_formula_partial`: the gain is the one of the Web Audio API, except where `refDistance` is 0 or, for the linear model, equal to `maxDistance`.
- `Panner.C63_range`: the gain is between 0 and 1, whenever it is a number.
- `Panner.C63_antitone_partial`: a source does not get louder with distance.
- `Panner.C63_full_partial`: up to the reference distance the source has its full level.
- `Panner.C63_negated_nan`: C63 fails at the edges that the setters accept: the gain is NaN for a linear model with equal distances, for an inverse model without reference and rolloff, and for an exponential model without reference at the listener.
- `Panner.C63_negated_ref`: without reference distance a source at the place of the listener has full level in the inverse model, where the specification has 0.

### C64 Cone gain of the panner

A source is at full level for a listener inside its inner cone, in particular when it points at the listener, has the outer gain for a listener outside its outer cone, and is interpolated linearly in between; without orientation or with full angles there is no cone.

*Approach* (`Verif/Panner`): Over ℝ; the spec uses the angle between orientation and the direction to the listener.

*Status*: partial. The code measures the angle to the direction from the listener to the source, so that the cone is the one of the opposite orientation (C64_reversed_partial, C64_negated).

- `Panner.C64_reversed_partial`: C64 with the wrong sign: the gain of the panner is the specified one for a source with the opposite orientation.
- `Panner.C64_range`: the cone never amplifies and never attenuates below the outer gain.
- `Panner.C64_omni`: full angles, the default, switch the cone off whatever the orientation.
- `Panner.C64_no_orientation_partial`: without an orientation there is no attenuation, if the inner angle is not 0.
- `Panner.C64_negated`: C64 fails: a source that points exactly at the listener is silent, and one that points exactly away has its full level. The specification has it the other way round.
- `Panner.C64_negated_no_orientation`: C64 fails without an orientation: a source that points nowhere has no cone, but with two angles 0 it is attenuated.

### C65 The panner renders the direction of the source

Azimuth and elevation are the spherical coordinates of the source in the axes of the listener, for every position and orientation of the listener. Equal power panning splits the power of a mono source according to the lateral position of the source and moves the far channel of a stereo source over with constant power.

*Approach* (`Verif/Panner`): Over ℝ: orthonormal frames, spherical coordinates; half angle formulas for the gains.

*Status*: proved. In exact real arithmetic; the rounding of f32 can push the argument of acos over 1.

- `Panner.C65_spherical`: for every position and orientation of the listener the azimuth and the elevation are the spherical coordinates of the source seen from the listener.
- `Panner.C65_frame_exists`: the axes exist whenever the two vectors of the listener are not parallel, so that `C65_spherical` covers every listener and every source except those of `C65_degenerate`.
- `Panner.C65_degenerate`: without a direction (source at the listener, or parallel vectors of the listener) both angles are 0.
- `Panner.C65_lateral_range`: the lateral position is between -1 and 1.
- `Panner.C65_lateral_exists`: every source has a lateral position, so that `C66_mono_partial` and `C66_stereo_partial` cover every direction.
- `Panner.C65_power`: panning a mono source keeps its power; the balance of power is the lateral position.
- `Panner.C65_power_stereo`: panning a stereo source keeps the power of the channel that is moved over.
- `Panner.C65_hrtf_direction`: the direction that the HRTF convolution gets is the direction of the source in the axes of the listener: right, above and front.
- `Panner.C65_silence`: silence stays silence, and the panner does not keep itself alive.
- `Panner.C65_no_panic`: the panner does not panic for the channel counts it accepts.
- `Panner.C65_hrtf`: what the HRTF convolution gets and gives. It gets the samples of a mono source, or half the sum of the channels of a stereo source, with the gain and the direction of the source at the first frame. Its output goes to the left and right channel, doubled for a stereo source.

### C66 Sample accurate automation of panner and listener

In equal power mode each frame is rendered for the values that position and orientation of source and listener have in that frame.

*Approach* (`Verif/Panner`): Functional model of `process`; every frame in terms of the spec of C63 to C65.

*Status*: partial. Holds if the parameters of the panner have one value in the quantum or some parameter of the listener has more (C66_mono_partial, C66_stereo_partial). With a static listener only the first value of an automated panner is used (C66_negated).

- `Panner.C66_mono_partial`: C66: a mono source. In every frame the output is the input with the power split between left and right according to the lateral position of the source at that frame, times the gain of distance and cone at that frame. Partial: only if the parameters of the panner do not move in this quantum, or those of the listener do.
- `Panner.C66_stereo_partial`: C66: a stereo source. The channel of the near side stays, the other is moved over with the lateral position of the source at that frame; both with the gain of distance and cone at that frame. Partial: only if the parameters of the panner do not move in this quantum, or those of the listener do.
- `Panner.C66_negated`: C66 fails: with the default listener and default attributes, a source that is automated from the left to the right within a quantum is still rendered at the left in the last frame, where it is at the right.

### C67 The HRTF panner plays its tail after every sound

After a sound ends the HRTF panner continues to render and stays alive until the impulse responses have decayed, each time a sound ends.

*Approach* (`Verif/Panner`): Induction over the history of the renderer with an arbitrary convolution.

*Status*: partial. Holds while the silence over the life of the panner is shorter than the impulse responses (C67_tail_partial); then every tail is lost (C67_lost, C67_negated).

- `Panner.C67_tail_partial`: as long as the silent quanta since the creation of the panner do not exceed the length of the impulse responses, every quantum is convolved and the node is kept, so that the tail is complete. Partial: the silence is counted over the life of the panner, not since the last sound.
- `Panner.C67_lost`: C67 fails in general: once the panner has seen as many silent frames as the impulse responses are long, at any time and with sound in between, every further silent quantum gives silence and lets the node end, whatever is left in the convolution.
- `Panner.C67_negated`: C67 fails: a panner that was idle for two quanta and then plays one quantum of sound puts out silence in the next quantum, where the convolution still has a sound.

### C68 Spectrum of the analyser

The frequency data are the Blackman windowed spectrum of the last fftSize samples, smoothed over the windows analysed, one per render quantum in which data are asked for: a tone in the middle of a bin shows in that bin and two on each side at known levels and nowhere else, a signal within full scale stays below -7.5 dB, silence is -infinity, and a NaN in the signal does not stay in the smoothed data.

*Approach* (`Verif/Analyser`): Over ℝ/ℂ; sums of roots of unity for the tone, weighted sum for the smoothing by induction over the calls.

*Status*: partial. Over the reals with the exact Fourier transform; negated for a change of the size within the quantum of the last call.

- `Analyser.C68_tone`: a tone at the frequency of bin `m` shows in bin `m` and the two bins on each side, with the level given by the window (0.42, 0.25 and 0.04 times half the amplitude), whatever its phase, and in no other bin.
- `Analyser.C68_bound`: a signal that stays within ±`c` has no bin above 0.42 `c`.
- `Analyser.C68_silence`: silence has an empty spectrum.
- `Analyser.C68_smoothing`: whatever calls are made, at whatever times and with whatever smoothing constants, a bin has the exponentially weighted mean of the magnitudes of the windows analysed since it was last 0: one window per distinct time.
- `Analyser.C68_reset`: a new analyser, a change of the size and a window with NaN set every bin to 0.
- `Analyser.C68_once`: a second call at the same time returns the same data, whatever has been rendered in between.
- `Analyser.C68_invariant`: with a signal within ±1 and smoothing constants in range no bin exceeds 0.42, so that the data are below -7.5 dB, after any calls.
- `Analyser.C68_resize_negated`: negated: after a change of the size in the quantum of the last call the data are neither those of the last call nor the spectrum of the window: every bin is -∞, whatever the signal, and stays so until time moves on.

### C69 Conversion of analyser data

Float data are levels in dB, byte data map minDecibels..maxDecibels linearly to 0..255, louder bins never get smaller bytes, both forms report the same analysis, time domain bytes are 128 per unit around 128, and excess elements of the array are left alone.

*Approach* (`Verif/Analyser`): Over ℝ with minus infinity as a value.

*Status*: partial. Over the reals; negated for excess elements of the time domain byte array.

- `Analyser.C69_float`: the float data are the levels in dB of the bins; elements beyond the bins are left alone.
- `Analyser.C69_byte`: the byte data map the range from `minDecibels` to `maxDecibels` linearly to 0..255, rounding down, and limit what is outside.
- `Analyser.C69_byte_mono`: the byte data of an empty bin are 0, and a louder bin has no smaller byte.
- `Analyser.C69_byte_data`: byte and float data of the same call agree on the bins, and bytes beyond the bins are left alone.
- `Analyser.C69_byte_time_partial`: time domain bytes of samples within ±1: 128 stands for 0 and a step for 1/128. Partial: only for as many elements as the window has.
- `Analyser.C69_byte_time_clip`: samples beyond ±1 give 0 and 255.
- `Analyser.C69_byte_time_excess_negated`: negated: the excess elements of an array longer than the window are not left alone: they become 128, while the float version leaves them.

### C70 Audio worklet nodes pass inputs, outputs and parameters as declared

A worklet processor is called once per quantum with all connected inputs, with as many output channels as declared or, by default, as the input has, with every parameter of the node under its name, and its outputs are what is sent on; silent outputs if it writes nothing.

*Approach* (`Verif/Worklet`): The table of slices as a list of ranges into the memory of the quanta; processors are arbitrary functions.

*Status*: partial. Negated: outputs that the processor does not write hold the samples of an earlier quantum.

- `Worklet.C70_new`: `new` accepts exactly the documented options.
- `Worklet.C70_process`: for all valid options and all inputs the processor runs; it sees exactly the inputs; each output has the number of channels it must have; what the processor leaves in channel `j` of output `i` is what the node outputs there; and the vectors of references, created with a fixed capacity, suffice.
- `Worklet.C70_compliant`: with the feature `spec-compliant-worklet-inputs` the processor sees no channels at silent inputs, and the others unchanged.
- `Worklet.C70_found`: what the processor finds in its outputs: what it has left there in the last quantum; a channel that did not exist then is a copy of channel 0.
- `Worklet.C70_silent_negated`: negated: the outputs are not silent when the processor is called. A processor that plays one block of ones and then writes nothing is heard for ever.
- `Worklet.C70_run`: whatever messages and quanta the render thread hands to a node made with valid options, nothing panics, the constructor runs once, at the first of them, and the outputs keep their shape.

### C71 The stream of a media stream destination node

The render thread never waits for the reader of the stream; the reader gets rendered buffers in order, each at most once and always the latest, all of them if it keeps up; they have as many channels as the node; the stream ends when the node does.

*Approach* (`Verif/Media`): Transition system of render thread, channel and reader; invariant over all runs.

*Status*: partial. Negated: the stream never ends but yields errors for ever; without connection it is mono.

- `Media.Destination.C71_never_blocks`: the render thread never waits for the reader.
- `Media.Destination.C71_order`: the reader gets buffers that were rendered, each at most once, in order, and no error while the node lives.
- `Media.Destination.C71_fresh`: a read never returns old sound: it is the last buffer that was rendered.
- `Media.Destination.C71_lossless`: if the reader has read every buffer before the next one is rendered, nothing is lost.
- `Media.Destination.C71_channels_partial`: with channel count mode `explicit` and at least one connection, the buffers have as many channels as the node.
- `Media.Destination.C71_channels_negated`: negated: without a connection the buffers are mono, whatever the configuration of the node.
- `Media.Destination.C71_end_negated`: negated: the stream never ends. When the node is gone, the reader gets one error after the other.

### C72 Recordings are complete and in order

A recorder delivers the header and all chunks of the track in order without gaps or repetitions, ends with exactly one stop event after the last data, reports errors of the track once, can be stopped at any time without losing recorded data and then be started again, and its file decodes to the samples of the stream.

*Approach* (`Verif/Media`): Transition system of recorder threads and the caller; invariant over all runs; arithmetic of the interleaved file.

*Status*: partial. Proved for one start. Negated: empty tracks, data after the stop event, restart, stop before start, changing channel counts, callbacks that call stop.

- `Media.Recorder.C72_prefix`: however the recorder thread and one or more calls of `stop` interleave, what is delivered is a prefix of the file: nothing is missing in between, doubled or out of order. One `start`, from a track nobody else reads.
- `Media.Recorder.C72_complete_partial`: a recording that is left alone until the track ends delivers the whole file: all chunks, or all up to the first error; then the error, if any, and the stop event, once. Partial: the track must not be empty (`C72_empty_negated`).
- `Media.Recorder.C72_progress`: a thread that is not done can go on (the track permitting), so that recordings do end.
- `Media.Recorder.C72_stop`: `stop` delivers all chunks that the recorder has taken from the track and finished with: only those still to come are missing.
- `Media.Recorder.C72_once`: the stop and the error callback are called at most once, whatever is started and stopped how often.
- `Media.Recorder.Wav.C72_decode_partial`: if all chunks have the same number of channels, the reader of the file finds in every channel the samples of that channel of the stream.
- `Media.Recorder.C72_empty_negated`: negated: for a track that ends before its first chunk there is no stop event, and the recorder stays active: it cannot be started again.
- `Media.Recorder.C72_after_stop_negated`: negated: data can be delivered after the stop event.
- `Media.Recorder.C72_restart_negated`: negated: a recorder that is stopped and started again while its thread waits for the next chunk begins the second recording with the last chunk of the first one, and then records every chunk twice.
- `Media.Recorder.C72_inactive_stop_negated`: negated: `stop` of a recorder that was never started delivers an event without data and a stop event.
- `Media.Recorder.Wav.C72_channels_negated`: negated: if the number of channels changes, as that of a stream destination does when the sound begins (C71), the header of the first chunk is used for all: silence in mono, then a stereo signal, is read as one channel that alternates between left and right and lasts too long.
- `Media.Recorder.Lock.C72_callback_stop_negated`: negated: a data callback that calls `stop` blocks the thread it runs on for ever; the data lock is never released and every later `stop` blocks as well.

### C73 Playback of a media element

Control actions of a media element take effect in the order given and within one render quantum; paused it is silent and does not move; playing it yields the frames of the file in order, looping without a gap; currentTime is the position in the file; any playback rate can be set.

*Approach* (`Verif/Media`): State machine over an abstract file reader; induction over the chunks.

*Status*: partial. The file reader (crate creek) is assumed; negated for batches of messages, time at rates other than 1 and at the end, rate 0, negative rates, negative seeks.

- `Media.Element.C73_messages`: the messages take effect in the order in which they were sent, one for every chunk.
- `Media.Element.C73_paused`: a paused element yields silence, and neither the position in the file nor the time move, until a message to play or to seek arrives.
- `Media.Element.C73_play_partial`: an element that plays at rate 1 yields the frames of the file from its position on, all of them and in order, and its time moves with the position.
- `Media.Element.C73_loop`: an element that loops at rate 1 yields the file again and again without a gap, and its time is the position in the file.
- `Media.Element.C73_panic`: `next` panics, on the render thread, exactly if it plays a part of the file at a rate that makes the sample rate of the chunk invalid.
- `Media.Element.C73_batch_negated`: negated: the comment of `new` says that up to 32 messages are handled per render quantum. With `k` messages before it `play` takes effect after `k` chunks of silence.
- `Media.Element.C73_time_rate_negated`: negated: at a rate other than 1 the time is not the position: at rate 2 it lags behind by half.
- `Media.Element.C73_time_end_negated`: negated: without loop the time runs past the end of a file whose length is not a multiple of 128.
- `Media.Element.C73_rate_zero_negated`: negated: a rate of zero, which should halt the playback, panics on the render thread; every file that plays meets this.
- `Media.Element.C73_reverse_negated`: negated: a negative rate plays forwards.
- `Media.Element.C73_seek_negated`: negated: a seek to a negative time is reported as such, although the file is read from its beginning.
- `Media.Element.C73_new_partial`: a new element that is told to play yields the file from its beginning at rate 1, without looping; its time is the position in the file.

### C74 Collection of render capacity

Between start and stop one collector reports, at most once per interval, consecutive periods that together cover all callbacks, none twice; stop ends the collection and returns, whichever thread calls it; dropping the context ends it too.

*Approach* (`Verif/Capacity`): Transition system of callers, collectors, event queue and clock; invariants over all runs.

*Status*: partial. Proved for calls from one thread; negated for simultaneous calls of start, for a dropped context, and for stop called by a handler.

- `Capacity.C74_partition`: the events of a collector report disjoint periods without gaps in between, and each reports at least one callback. For all runs, whatever threads call `start` and `stop`.
- `Capacity.C74_single_partial`: if one thread calls `start` and `stop`, at most one collector is at work at any time, and none once `stop` has returned.
- `Capacity.C74_disjoint_partial`: if one thread calls `start` and `stop`, no callback is reported twice: the periods of all events, of all collectors, follow each other.
- `Capacity.C74_interval_partial`: if one thread calls `start` and `stop`, a collector looks at the statistics, and sends an event, at most once per interval.
- `Capacity.C74_release_negated`: negated: when the context is dropped while a collection is on, the collector does not end, and no longer waits for the interval: it goes round any number of times without time passing.
- `Capacity.C74_race_negated`: negated: if two threads call `start` at the same time, two collectors work, every callback is reported twice, and one of the collectors survives `stop`.
- `Capacity.C74_handler_negated`: negated: `stop` called by an event handler, while the collector waits for room in the event queue, never returns, and with it the event thread stops.

### C75 Decoding of audio files

Decoding yields all samples of the chosen track in order, converted to the sample rate of the context, however the file is cut into packets and whatever other tracks it has; errors and changes of the layout make it fail as a whole, and it never panics.

*Approach* (`Verif/Decode`): Loop over an arbitrary list of reader results; induction over the list.

*Status*: partial. The reader and decoder (crate symphonia) are arbitrary lists of results. Negated: truncated files and undecodable packets are accepted silently, and files with more than 32 channels.

- `Decode.C75_complete`: C75 A file that the reader can read to its end, all packets of whose track decode to chunks of one layout, is decoded to the samples of all chunks one after the other, converted to the sample rate of the context; it does not matter how long the chunks are and what other tracks there are between them.
- `Decode.C75_samples`: C75 At the sample rate of the file every sample of the result is the sample of the file.
- `Decode.C75_error`: C75 An error of the reader, a fatal error of the decoder, and a change of the sample rate or of the number of channels make the whole decoding fail, wherever in the file they are (after at least one chunk): a part of the file is never passed off as the whole.
- `Decode.C75_no_panic`: C75 Decoding never panics, whatever the reader and the decoder return, as long as the channels of each chunk have equal lengths.
- `Decode.C75_negated_truncated`: C75 negated: a file that ends prematurely is decoded without an error to what precedes the end.
- `Decode.C75_negated_corrupt`: C75 negated: a packet that cannot be decoded is left out without an error, so that everything after it is heard too early: sample 2 of the file is 30, sample 2 of the result is 50.
- `Decode.C75_negated_channels`: C75 negated: a file with more channels than an `AudioBuffer` may have (32) is decoded to a buffer that no constructor accepts.

### C76 Rendering without an audio device

With sink id none the graph is rendered at the pace of real time: never faster, without drift, not at all while suspended or closed, and the thread ends with the context.

*Approach* (`Verif/Io`): Transition system with a clock; invariants over all runs.

*Status*: partial. Proved up to one quantum per resume and while the backend is alive; negated: late second quantum after a resume, rendering without waiting after the context is dropped before startup, thread that never ends.

- `Io.NoneBackend.C76_pace_partial`: C76 As long as the backend is alive, the graph is never rendered faster than real time: in every reachable state the quanta rendered so far last no longer than the time since the start, up to one quantum for each time the context was resumed.
- `Io.NoneBackend.C76_no_drift`: C76 No drift: while nothing is asked of a running backend, the `k`-th quantum is due exactly `k` intervals after the first deadline, and it is not rendered earlier; however much some quanta are delayed, the following deadlines are not.
- `Io.NoneBackend.C76_suspended`: C76 After the thread has received `Suspend` it renders nothing until it receives a `Resume`, and after `Close` nothing at all.
- `Io.NoneBackend.C76_resume_negated`: C76 negated: after a resume at time `t` the first quantum is rendered at once, and the second one is due only two intervals later.
- `Io.NoneBackend.C76_drop_negated`: C76 negated: a context that is dropped before its render thread has handled the first message is not in state `Running`, so its backend is dropped, and from then on the thread renders without waiting: any number of quanta in no time.
- `Io.NoneBackend.C76_spin_negated`: C76 negated: nor does the thread end; once the backend of a suspended context is dropped it never waits again (every state with an empty queue can step at once) and never returns.

### C77 Microphone input

What the device captures arrives as buffers with its channels separated, in order, without loss or silence as long as the reader keeps pace; the stream ends after the device is gone and everything was delivered.

*Approach* (`Verif/Io`): Queue of capacity 3 between callbacks and reader; invariant over all operation sequences.

*Status*: partial. Negated: a reader that is early hears silence, a device that is early loses buffers, and more than 32 channels panic.

- `Io.Microphone.C77_deinterleave`: C77 A callback with `m` frames of `n` interleaved channels (1 to 32) is captured as a buffer with `n` channels of `m` frames, whose frame `k` of channel `i` is the sample at position `k n + i`.
- `Io.Microphone.C77_order_partial`: C77 Order and completeness: at any time, what the reader got (apart from silence) followed by the at most three buffers that wait for it are the buffers captured so far, each once and in order, except for those that found the channel full; and the stream only ends when the device is gone and every accepted buffer has been delivered.
- `Io.Microphone.C77_dropped`: C77 Every captured buffer is accepted or counted as dropped, and the accepted ones are a subsequence of the captured ones.
- `Io.Microphone.C77_complete`: C77 A reader that stays between zero and three buffers behind the device loses nothing and hears no silence: it gets exactly the captured buffers in order.
- `Io.Microphone.C77_negated_channels`: C77 negated: a device with more than 32 channels makes the callback of the input stream panic, with the first frame.
- `Io.Microphone.C77_negated_gap`: C77 negated: a reader that asks once too early hears silence although no sound was lost, and from then on everything comes later; if the device then catches up, captured buffers are lost.

### C78 Ids of audio devices

Listed devices have distinct ids; an id selects the device it was listed for and keeps doing so when other devices come and go; unknown ids are refused.

*Approach* (`Verif/Io`): Functions over device lists with an arbitrary hash; induction over the lists.

*Status*: partial. With cpal selection of outputs needs that hashes of inputs and outputs do not collide. Negated: collision, more than 256 equal devices, a nameless device hides all, unknown input id falls back to the standard device, unplugging.

- `Io.Devices.C78_unique`: C78 No two listed devices have the same id, whatever the hash function is: with `cpal` among all devices, with `cubeb` among the devices of one kind.
- `Io.Devices.C78_select`: C78 A listed id opens the device that it was listed for: for playback with the crate `cubeb` whatever the hash function is, with `cpal` if the hashes of inputs and outputs do not collide; for recording always. And an id that is not listed is refused for playback.
- `Io.Devices.C78_stable`: C78 If the hash has no collisions, the id of a device depends only on its name, its channel count, and on how many devices with the same name and channel count are listed before it; in particular other devices come and go without changing it. All devices can be listed if all have a name and no more than 256 are alike.
- `Io.Devices.C78_negated_collision`: C78 negated: with `cpal`, if the hash of an input device collides with that of an output device, the id that is listed for the output opens the standard device instead.
- `Io.Devices.C78_negated_overflow`: C78 negated: more than 256 devices of one name cannot be listed; the enumeration panics.
- `Io.Devices.C78_negated_hidden`: C78 negated: a single device without a name hides all devices (with a channel count), and then every sink id is refused.
- `Io.Devices.C78_negated_fallback`: C78 negated: `get_user_media_sync` records from the standard device if the requested one does not exist.
- `Io.Devices.C78_negated_unplugged`: C78 negated: of two devices that are alike, the id of the first means the second when the first is unplugged.

### C79 Rate, channels and buffer size of streams

The graph is rendered with the sample rate and the channel count of the stream the device plays, and the context reports them, whatever was requested and also after a change of the sink; the buffer size is a power of two near the requested latency.

*Approach* (`Verif/Io`): Functions of a device that accepts an arbitrary set of configurations; case analysis and arithmetic.

*Status*: partial. Negated: fractional rates with cubeb, change of the sink to a device that refuses the rate, huge and non-positive latency hints.

- `Io.Config.C79_buffer_partial`: C79 A custom latency hint gives a power of two frames, at least the hint (rounded down to frames) and less than twice as much, or less than two frames.
- `Io.Config.C79_categories`: C79 The named categories ask for whole render quanta, a power of two of them, more for more relaxed ones, whatever the rate is: 128 frames, the least possible, for interactive use.
- `Io.Config.C79_cpal`: C79 With `cpal`, the graph is rendered with exactly the sample rate and channel count of the stream that the device accepted, whatever was requested, and these are the ones that are reported; contexts have at most 32 channels.
- `Io.Config.C79_cpal_input`: C79 The same for the microphone: the captured data are packed for the rate and channel count of the stream.
- `Io.Config.C79_context`: C79 A context reports the rate and the channel count of the stream it plays.
- `Io.Config.C79_honoured`: C79 A device that accepts all configurations with a given whole sample rate is used at this rate, and a context without a request at the rate of the device.
- `Io.Config.C79_cubeb_partial`: C79 With `cubeb` the same, if the sample rate is a whole number.
- `Io.Config.C79_sink_partial`: C79 When the sink is changed (with `cpal`) to a device that accepts the rate of the context and has as many channels, rate and channel count of the context remain those of the stream.
- `Io.Config.C79_buffer_negated`: C79 negated: a hint of more than 2^31 and at most 2^32 frames (13 to 27 hours at 44.1 kHz) asks for a buffer of size zero.
- `Io.Config.C79_hint_negated`: C79 negated: `try_new` panics for a latency hint that is not positive instead of returning an error.
- `Io.Config.C79_cubeb_negated`: C79 negated for `cubeb`: with a requested rate of 44100.5 Hz the graph is rendered for 44100.5 Hz while the device plays 44100 frames per second.
- `Io.Config.C79_sink_negated`: C79 negated: if the new device refuses the sample rate, the graph is rendered at the rate of the device while the context, all its nodes and `currentTime` keep the old rate.
- `Io.Config.C79_buffer_range`: C79 The buffer size that a device is asked for lies in the range the device reports, and of all sizes in this range it is one that is nearest to what the latency hint asks for; a device without a range is asked for just that.

### C80 Delivery of events

An event that the engine raises (ended, message, statechange, processor error, audioprocess, sinkchange, render capacity, diagnostics) runs its callback exactly once, after the callbacks of all events raised before, with its own payload; nothing is delivered after the change to closed, with which delivery ends; raising an event neither blocks for ever nor kills the thread that raises it.

*Approach* (`Verif/Events`): Transition system of the raising threads, the bounded channel and the event thread; invariants over executions.

*Status*: partial. Order, at most once, payloads and nothing after closed hold always; completeness needs that fewer than 256 events wait whenever one is raised. Negated with a full queue: events lost, a lost change to closed keeps the event thread alive, diagnostics kill the render thread, a callback waits for itself, and after a panicking callback threads wait for ever.

- `Events.Queue.C80_in_order`: Callbacks run for events that were raised, each at most once, in the order in which they were raised, with the news they are meant to get.
- `Events.Queue.C80_nothing_after_closed`: No callback runs after the one for the change to closed.
- `Events.Queue.C80_payloads`: No callback gets a payload for which it has no code.
- `Events.Queue.C80_no_loss_partial`: As long as less than 256 events wait whenever one is raised, no event is lost and the render thread lives; events are waiting or have been handled, and no thread has to wait when it raises the next one. In general false: see the negations.
- `Events.Queue.C80_all_handled_partial`: As long as less than 256 events wait whenever one is raised, the event thread, when it is between two callbacks, handles everything that was raised, up to the first change to closed, without the help of any other thread; then it ends.
- `Events.Queue.C80_negated_lost`: a sound ends while 256 messages of a worklet wait: the callback for its end never runs, though all others run
- `Events.Queue.C80_negated_never_ends`: a running context is closed while 256 messages wait: the change to closed is lost, and the event thread goes on waiting for ever (unless a callback panics)
- `Events.Queue.C80_negated_render_killed`: diagnostics are requested while 256 messages wait: the render thread is killed
- `Events.Queue.C80_negated_deadlock`: a callback changes the sink while 256 messages wait: it waits for itself, and nothing is handled any more, whatever happens
- `Events.Queue.C80_negated_waits_forever`: a callback panics: the event thread is gone; when the channel is full every thread that changes the sink, closes a suspended context or collects render capacity waits for ever

### C81 Events of an offline rendering

When an offline rendering returns every event raised during it was handled, in order, the last ones being the change to closed and the completion with the rendered buffer; the events of a quantum are handled, and what their callbacks send to the graph is processed, before the next quantum.

*Approach* (`Verif/Events`): Program over an arbitrary world of graph and callbacks; invariant over the loop.

*Status*: proved. Callbacks are assumed not to panic and not to raise events.

- `Events.Offline.C81_offline_events`: Offline rendering, for every graph, every set of suspensions and every length, whatever the callbacks do: when `start_rendering_sync` returns every event that was raised was handled, once and in the order in which it was raised; the last two are the change to closed and the completion with the rendered buffer. When a quantum is rendered every control message that any callback sent before was processed, and every event but changes of state was handled.

### C82 A suspended offline context waits for resume

From the moment the promise of suspend is resolved until resume is called no quantum is rendered and the state is suspended; resume has no effect when the context is not suspended, and panics when rendering has not started or is finished; closed is final.

*Approach* (`Verif/Events`): Transition system of the futures; the trace is checked by an independent automaton; invariant over executions.

*Status*: partial. Holds when resume is called once per resolved suspension. Negated: resume before the start (or twice) cancels a later suspension, a late promise or resume reopens a closed context.

- `Events.Suspend.C82_suspended_partial`: When `resume` is called once after every resolved suspension, then for every length and every set of suspensions: no quantum is rendered while the context is suspended, every suspension happens at its quantum and only once, the state is always the one that the user expects, and closed is final. In general false: see the negations.
- `Events.Suspend.C82_progress_partial`: the rendering never hangs by itself: unless it waits for the user to resume, or for a promise to run, it can go on
- `Events.Suspend.C82_negated_resume_early`: `resume` before the rendering has started does not panic, as documented, but stays in force: the rendering does not stop at the suspension
- `Events.Suspend.C82_negated_closed_suspended`: ... and the promise of the suspension can be resolved after the end: a closed context becomes suspended
- `Events.Suspend.C82_negated_closed_running`: `resume` after the end: the call panics, and the closed context is running again

### C83 getFrequencyResponse tells what the filter does

The magnitude and phase that getFrequencyResponse of an IIR or biquad filter reports for a frequency from 0 to half the sample rate are the gain and the shift that the rendered output of a sine of this frequency tends to, for every amplitude and phase of the sine, for every quantum size and every channel. Other frequencies give NaN; slices of different lengths are refused.

*Approach* (`Verif/Filter`): Frequency response modelled over the complex numbers; the difference equation of C42/C43 is solved for sines, the homogeneous part decays by factorising the characteristic polynomial.

*Status*: partial. Proved for stable IIR filters and for all biquad filters but the lowpass with frequency 0, for which NaN is reported at 0 Hz (negated). Exact arithmetic.

- `Filter.C83_iir`: for all IIR filters with poles inside the unit circle, all frequencies from 0 to the Nyquist frequency: the reported magnitude and phase are what the filter does, in the long run, to a sine of this frequency. For all other frequencies NaN is reported.
- `Filter.C83_biquad_partial`: the same for the biquad filter with constant parameters, for all types and all values of the parameters, except for the lowpass with a frequency of 0.
- `Filter.C83_lengths`: arguments of different lengths are refused.
- `Filter.C83_negated_lowpass`: C83 is false for the lowpass with a frequency of 0: at 0 Hz NaN is reported.

### C84 connect and disconnect of all nodes, including the delay

The connections the user made and did not undo are exactly those the context administers: connect adds one, the five disconnect methods remove exactly those they name, dropping an object removes its own, and reused ids bring no old connections. Calls panic exactly for the documented reasons (other context, port out of range, not connected) and then change nothing. A delay, which consists of two engine nodes, behaves like any other node, also in loops, and keeps its inner connection; a panner keeps its connection to the listener. For each removed connection the render thread gets one message.

*Approach* (`Verif/Graph`): Methods of the trait and their overrides one by one over the administration; refinement to objects and wires by an invariant over all histories.

*Status*: proved. Ids of objects that are alive are assumed distinct (C06-C09); a drop is one step (the race is in C11); repeated connections reach the render thread repeatedly (C10).

- `Wiring.C84_wiring`: for all histories of calls in any number of contexts, with delays, panners and reused ids: the connections that the code administers between objects that are alive are exactly the wires of the specification, the delay keeps its inner connection and the panner the one from the listener.
- `Wiring.C84_refused`: a call panics exactly for the documented reasons, and then nothing changes: no connection, no message.
- `Wiring.C84_messages`: what the render thread is told. For a connection that is not refused: one message, for the node with the outputs of the source and the node with the inputs of the destination. For the `disconnect` methods: one message for each wire that the call removes, and no other.

### C85 Late events and answers stay with their node

An event raised by a node only ever runs a handler that was set on this node, however late it is handled and whatever happened to the node since; the output buffer with which the user answers an audioprocess event only ever reaches the script processor that raised it, and is ignored if this does not exist any more.

*Approach* (`Verif/Events`): Interleavings of three kinds of threads over ids, message channel, event queue and handlers, with serial numbers of nodes as ghost data; invariant over all histories; witnesses for the negations.

*Status*: partial. False in general: ids are reused while events or answers under the old id are still under way. A queued ended event of a dropped source runs (and uses up) the handler of a new source; an answer for a dropped script processor panics the render thread or becomes the buffer of another source. Proved for users that clear handlers and finish answers before dropping a node and create no node while events for its id are queued, and for users that drop no node.

- `Events.Late.C85_own_partial`: for all interleavings of control threads, render thread and event thread in which the user takes the care described by `careful`: callbacks run only for events of the node they were set on, answers reach only the node of the event, and they never find the node gone. Missing for the full claim: the care should not be necessary, see the negations.
- `Events.Late.C85_no_drop_partial`: without dropped handles no care is necessary.
- `Events.Late.C85_negated_stolen`: C85 is false: the `ended` event of a source whose handle was dropped (a sound that is fired and forgotten) is in the queue when its id is given to a new source. The handler of the new source runs although it has not ended, and as it runs only once, its own end is not noticed.
- `Events.Late.C85_negated_before_drop`: C85 is false: the id is given away before the last event of the removed node is raised.
- `Events.Late.C85_negated_crash`: C85 is false: the handle of a script processor is dropped while its callback runs; the answer finds the node gone and the render thread panics.
- `Events.Late.C85_negated_wrong_node`: C85 is false: the same with a new node under the id, which gets the buffer of the answer. An `AudioBufferSourceNode` takes it as the buffer to play (`/repo/src/node/audio_buffer_source.rs` l.847-870).

### C86 Objects handed to the engine are destroyed once, and not by the render thread

Every object that is sent to a processor (audio buffer, curve, wave table, convolver, HRTF data, value curve) is destroyed exactly once, at the latest when the stream is gone; objects that a node no longer needs are destroyed by the garbage collector thread and never by the real-time render thread; the garbage collector thread ends after the render thread.

*Approach* (`Verif/Thread`): Objects are tokens that move between message channel, processors, queue of the collector and destruction; conservation of tokens by counting, invariant on the poison pill.

*Status*: partial. Destruction exactly once and the end of the collector thread hold always. Destruction off the render thread holds for buffer sources, convolvers, wave shapers and oscillators that are not removed; false for the HRTF data of a panner, for value curves and for everything a removed node holds (negations).

- `Garbage.C86_at_most_once`: no object is destroyed more often than it was handed over, in all histories.
- `Garbage.C86_exactly_once`: when the garbage collector thread has ended, everything that was handed over is destroyed, each object exactly as often as it was handed over; nothing is leaked and nothing waits in a queue for ever.
- `Garbage.C86_collector_ends`: after the end of the render thread the garbage collector thread ends by itself after as many turns as there are things in its queue.
- `Garbage.C86_render_partial`: the render thread itself destroys nothing if the garbage collector thread was started first, no node is removed, and only those nodes are used that exchange their object (buffer source, convolver, wave shaper, oscillator) or receive none. Missing for the full claim: panners, value curves and removed nodes, see the negations.
- `Garbage.C86_negated_panner`: C86 is false: the HRTF data of a panner are destroyed by the render thread when the panning model changes.
- `Garbage.C86_negated_free`: C86 is false: a buffer is destroyed by the render thread when the source that has it is removed, if the user keeps no clone of it.
- `Garbage.C86_negated_curve`: C86 is false: value curves are destroyed by the render thread when they have been played.

### C87 setTargetAtTime approaches its target exponentially

From the start time T of a setTargetAtTime event with target v1 and time constant tau up to the next event, the value at time t is v1 + (v0 - v1) exp(-(t-T)/tau), where v0 is the value at T, up to a tolerance of 1e-10; an event with a start time in the past starts at the current time, so that the value never jumps.

*Approach* (`Verif/Param`): Invariant on the stages of the event between quanta (waiting, active, replaced because close to the target, done); frames by the prefix property of the buffer.

*Status*: partial. In exact arithmetic, for a target without other pending automation (later setValueAtTime events allowed). False for start times in the past (negation) and for a ramp that follows (C29_negated_ramp).

- `Param.C87_follows_partial`: after `set_target_at_time` on a parameter without other pending automation (in any state otherwise), possibly followed by calls of `set_value_at_time` for later times, every frame from the start time up to the next event is on the exponential approach from the value the parameter had when the event was handled, up to the documented tolerance; for a-rate parameters every frame, for k-rate parameters the first frame of each quantum. Missing: start times in the past (`C87_negated_past`: the formula is right, but it should start at the current time); a ramp that follows (`C29_negated_ramp`).
- `Param.C87_negated_past`: C87 is false if the start time is in the past: the first frame rendered after the call is not where the parameter was (`v0`), it is where an approach that started back then would be now. Not even 0, which stands for "now" in `set_value_at_time`, is treated differently.

### C88 setValueCurveAtTime plays the curve

Between the start time T and T + D the value of a parameter with a value curve is the linear interpolation of the curve's equally spaced points, from the first to the last one, and the last value afterwards; a curve with a start time in the past starts at the current time.

*Approach* (`Verif/Param`): Specification as a relation that is shown to determine the value; invariant on the event between quanta.

*Status*: partial. In exact arithmetic, for a curve without other pending automation (later setValueAtTime events allowed). False for start times in the past (negation).

- `Param.C88_plays_partial`: after `set_value_curve_at_time` on a parameter without other pending automation (in any state otherwise), possibly followed by calls of `set_value_at_time` for times after the curve, every frame from the start of the curve up to the next event has the value of the curve, and the last value after its end (up to half a frame before the end, and from the end on). Missing: start times in the past (`C88_negated_past`); a curve that is not alone (`C29_negated_curve`); the rounding of the position (`C57_negated`); frames less than half a frame before the end, which may have the last value already.
- `Param.OnCurve.unique`
- `Param.C88_negated_past`: C88 is false if the start time is in the past, even if it is 0, which stands for "now" in `set_value_at_time`: the part of the curve before the current time is cut off; in particular the curve does not begin with its first value.

### C89 AudioParam.value reports what is rendered

AudioParam.value is the (clamped) first frame of the last rendered quantum, or the value assigned since; an assigned value is visible at once and stays until other automation changes it.

*Approach* (`Verif/Param`): The value after the loop of a quantum is the one of the running event at the end of the quantum (case analysis over all kinds of events); the message channel between both threads for assignments.

*Status*: partial. Coherence holds for all timelines and any arithmetic in quanta without new messages, unless an event is due in the first half frame; parameters that are only assigned settle on the value assigned last. False right after setValueAtTime(now), at quantum boundaries with several events, and between an assignment and the arrival of its message (negations).

- `Param.C89_coherent_partial`: in the second of two quanta with no message in between, whatever happened before and whatever is scheduled, `value` is the first frame of the quantum (clamped, as the output is) - unless an event begins, ends or replaces another one in the first half frame of this quantum (`C89_negated_boundary`). Missing: quanta right after a message (`C89_negated_now`, `C89_negated_race`).
- `Param.C89_never_other`: C89 for a parameter that is only used through `set_value`: at all times `value` is one of the values that were set (or the initial one), clamped.
- `Param.C89_settles`: once every message has arrived, from the next quantum on `value` and all frames are the value set last. (Right after the call `value` returns it, too, see `act`; but not in between, `C89_negated_race`.)
- `Param.C89_negated_race`: C89 is false between the call of `set_value` and the arrival of its message: the quantum rendered in between takes the value back, for all values.
- `Param.C89_negated_now`: C89 is false for `set_value_at_time` with the current time: in the first quantum `value` is the old value.
- `Param.C89_negated_boundary`: C89 is false if a ramp ends and a value is set at the beginning of a quantum: `value` is the end of the ramp, the first frame is the value that is set. The same for a curve that begins there.

### C90 Nodes are created with the documented parameters and the values of their options

Every constructor creates exactly the documented AudioParams, with the documented default values, nominal ranges, automation rates and rate constraints; value() is the option brought into the range; options that are NaN or infinite are refused. However the render thread interleaves the messages of the constructor with rendering, it does not panic, and from the first quantum in which the node exists its parameters have the value that the user sees. Parameters with a constrained rate refuse another rate.

*Approach* (`Verif/Create`): The closures of the constructors as lists of actions, against a separate table of the documented parameters; invariant on the messages about a parameter (registration, values, node, connection) and induction over the interleaving with quanta.

*Status*: partial. Proved for all ten node types with parameters and for worklets. Finite f32 values are numbers of an ordered field (f32::MAX exact); recycled ids, for which the messages of the parameters and their node may be handled out of order, are not included.

- `Create.C90_documented`: with finite options every constructor succeeds, for all valid sample rates and maximal delays; the created node has exactly the documented parameters, with their limits, defaults and rates, and `value` is the option brought into the nominal range (with the options by default, the default value).
- `Create.C90_refused`: a value in the options that is NaN or infinite is refused (the constructor panics), whatever the others.
- `Create.C90_worklet`: worklets: with consistent descriptors and finite data the parameters are as described, with the value of the data brought into the range, or the default value.
- `Create.C90_rate`: rates: a parameter with a constrained rate refuses another rate (and only this), and otherwise the getter and the message to the render thread are the rate that was set.
- `Create.C90_sent_once`: the constructor leaves no message behind; the connection of each parameter with its node is sent exactly once.
- `Create.C90_first_quantum`: let the render thread receive the messages of any constructor and render quanta in between, in any order. It never panics. In every quantum in which the node exists, all frames of each of its parameters have one value `x`, and brought into the range this is the value which the user saw when the constructor returned. And the node does exist once all messages have been received.

### C91 Attributes of nodes show what was set, and the renderer uses it

The attributes of a node that are not AudioParams (type and wave of oscillators, buffer and loop points of buffer sources, curve and oversampling of wave shapers, response and normalization of convolvers, panner attributes, filter type) always show the acceptable value set last (respectively the first buffer or curve, or custom once a wave was set); unacceptable values are refused and change nothing. The renderer uses the values in effect after some of the calls, in order, and the current ones once all messages have arrived; the loop points are brought into the buffer whatever the order of the calls.

*Approach* (`Verif/Attr`): The two copies of the attributes with the message channel in between; a general theorem reduces interleavings to a specification by the list of calls, which is checked call by call.

*Status*: partial. Proved for all calls and interleavings, except that an empty curve is accepted by the wave shaper and panics its renderer (negation). Messages are assumed to arrive in order (C19).

- `Attr.C91_oscillator`: oscillator: with every interleaving of calls and messages, `type_()` is as expected, and the renderer has the type and the wave (the one set last) after the first `k` calls, for all calls when no message is under way. It never has the type custom without a wave, unless the type custom was given to the constructor.
- `Attr.C91_buffer_source`: buffer source: the getters show the values set last (and the buffer, which can be set once); the renderer uses the same values after the first `k` calls, with the loop points brought into the buffer, in whichever order buffer and loop points were set.
- `Attr.C91_shaper_partial`: wave shaper: `curve()` is the first curve (a second one is refused) and `oversample()` the value set last; the renderer has the values after the first `k` calls, and passes silence on only if its curve maps zero to (almost) zero. Missing: an empty curve, for which the renderer panics (`C91_negated_empty`).
- `Attr.C91_negated_empty`: C91 is false for an empty curve: it is accepted, and the renderer panics.
- `Attr.C91_convolver`: convolver: the getters show the buffer accepted last and the value of `normalize` set last; the renderer uses the buffer accepted last among the first `k` calls, normalized or not as was set when the buffer was given.
- `Attr.C91_panner`: panner: the constructor refuses unacceptable options (and only these); then every attribute shows the acceptable value set last, other values are refused and change nothing, and the renderer has the values after the first `k` calls (of which the first is the panning model of the options).
- `Attr.C91_biquad`: biquad filter: the getter shows the type set last, the renderer has the one after the first `k` calls.

### C92 Oversampled wave shaping is one uninterrupted stream per channel

With oversampling, the output of each channel is the whole input of the channel upsampled, shaped with the curve and downsampled as one stream, whatever the division into render quanta; nothing of the stream is cut off, delayed or repeated.

*Approach* (`Verif/Node`): Resamplers are arbitrary machines with a memory for each channel; induction over the quanta compares the node with one stream per channel.

*Status*: partial. Proved while the number of channels stays the same and no silence is passed on; false when the input pauses: the rest in the resamplers is cut off and comes out at the next sound (negation for arbitrary resamplers, witness). The FFT resamplers of the library are arbitrary machines.

- `Node.C92_oversampled_two`: C92 (twice; four times is `C92_oversampled_four`): as long as the number of channels is constant and no silence is passed on, each channel is upsampled, shaped and downsampled chunk by chunk without interruption, starting with new resamplers if there was another number of channels before.
- `Node.C92_oversampled_four`: C92 four times
- `Node.C92_negated_pause`: C92 is false when the input pauses, whatever the resamplers are: the rest of the sound in their memory is cut off, and comes out when the next sound begins, as if there had been no pause.
- `Node.C92_negated_pause_witness`: With them, the last sample of a sound is cut off and comes out after the pause: without interruption it would be the first sample of the pause.

### C93 Samples that are not finite do not stay in filters

BiquadFilterNode and IIRFilterNode never output NaN or infinity, and every output sample obeys the difference equation of the filter as soon as the inputs that the equation uses are finite again, whatever was in the input before; flushing of tiny values costs at most the smallest normal number per sample.

*Approach* (`Verif/Nan`): Numbers with NaN and infinities; an invariant says which states are determined by finite inputs; a generic node theorem lifts from one channel to quanta with silence.

*Status*: partial. Proved for all inputs if the inputs that the filter remembers are finite before silent quanta; otherwise they stay in the filter and falsify the next sound (negations). The output is checked before it is narrowed to f32 and can be infinite (negation). Finite values are exact; flushing bounded per channel.

- `Nan.C93_iir_partial`: C93 for the IIR filter: with any samples at the input, the output is finite and obeys the difference equation wherever the inputs of the equation are finite, across the borders of the quanta, provided that before silent quanta the inputs that the filter remembers are finite (see `C93_negated_pause_iir`). Values flushed because they are too small are not taken into account (`C93_iir_small` is the bound for one channel).
- `Nan.C93_iir_small`: C93 for one channel of the IIR filter with flushing of values below `t`: the output is finite, and the equation holds with an error of at most `t`.
- `Nan.C93_biquad_partial`: C93 for the biquad filter, like `C93_iir_partial`; `qs` has the coefficients of the frames of the quanta.
- `Nan.C93_biquad_small`: C93 for one channel of the biquad filter with flushing of values below `t`
- `Nan.C93_negated_pause_iir`: C93 is false when the input of an IIR filter pauses right after a sample that is not finite: the sample stays in the filter however long the pause is, and falsifies the next sound. Two taps; the last output would be 1.
- `Nan.C93_negated_pause_biquad`: C93 is false for the biquad filter in the same way: coefficients `b = (1, 1, 1)`; the output after the pause would be 1, 2.
- `Nan.C93_negated_overflow`: C93 is false for the samples that are output: they are checked before they are narrowed to `f32`, so that finite input can give infinite output. A filter with the coefficient `10^39`.

### C94 The compressor recovers from samples that are not finite

A NaN or infinite sample in the input of a DynamicsCompressorNode affects only the output of that sample; the gain of all others is the one that the finite samples ask for, and reduction stays a number.

*Approach* (`Verif/Nan`): NaN is absorbing in the level detector; without it the gains refine the exact model of C59.

*Status*: partial. False: after one sample that is infinite, or NaN in all channels, all output is NaN forever, for all params (negation). Proved when every frame has a finite channel and none is infinite.

- `Nan.C94_gains_partial`: when no frame is infinite in a channel or undefined in all: the gains are those that the finite channels ask for, as in `C59_curve` etc.
- `Nan.C94_negated`: C94 is false: one sample that is infinite, or undefined in all channels, and the compressor never recovers: all sound after it is output as NaN, whatever the params are.
- `Nan.C94_negated_reduction`: C94 is false for the metering as well: `reduction` is NaN from then on.

### C95 Settings shared by threads end up the same on both sides

Channel count, mode and interpretation of a node and the automation rate of a parameter can be set by several threads at the same time. The accepted calls take effect in one order, consistent with each thread's order and with real time; the node shows the values of the last ones, the renderer has those of a first part of the order, and the same as the node once no call or message is under way. Both are always allowed for this kind of node, and no caller waits forever.

*Approach* (`Verif/Attr`): Steps of calls with a mutex; invariant: values written = calls delivered, in the channel, and of the owner of the mutex.

*Status*: proved. All schedules with the mutex; sending appends to the channel (loss and reordering by suspend and sink changes: C19), the node is in the graph (C09), no poisoned mutex.

- `Attr.C95_channel_config`: the channel configuration, for every kind of node, however many threads call the setters, for all schedules: there is an order of the accepted calls such that the node shows the last values in this order, the renderer has those of a first part of it, always an allowed configuration, and what the node shows when no call and no message is under way. The order contains the accepted calls of each thread in its order, all of them that it completed; it only grows, so that a call that was completed before another was begun precedes it.
- `Attr.C95_accepted`: which calls are accepted: those which ask for an allowed configuration, whatever the current one is.
- `Attr.C95_progress`: no thread waits for ever for a setter of the channel configuration.
- `Attr.C95_automation_rate`: the automation rate of a parameter, also between the clones of a parameter; a constrained one stays what it is, on both sides.

### C96 Whole envelopes play as scheduled

An envelope of setValueAtTime, linear and exponential ramps and setTargetAtTime events, scheduled in time order on an a-rate parameter: from the time of each event up to the next one every frame has the value the events prescribe. A set value or the end of a ramp is held, a ramp connects the event before it to its end, an exponential approach starts from the value at which the preceding event ended, so that e.g. the release of a note starts where its decay was.

*Approach* (`Verif/Param`): Specification by the position of a frame among the events (Segment, Ends), independent of quanta; invariant of the loop and between quanta (Playing, Waiting): which event is current, from which value it started, and that frames still to be computed are not before it.

*Status*: partial. Any envelope in time order in which no ramp directly follows a target, any alignment; events may be scheduled ahead or live, each before its time. Missing: frames before a target that is scheduled for a later quantum (C96_negated_sustain, C29_negated_target), ramps directly after a target (C29_negated_ramp), the half frame before an event (C27_negated_end); value curves within an envelope.

- `Param.C96_envelope_partial`: an envelope of set value events, linear and exponential ramps and exponential approaches, scheduled in time order on an a-rate parameter with no other pending automation, in any state otherwise: every frame of every quantum from the time of an event up to half a frame before the next one has the value that the specification gives for it (`Segment`: held, on the ramp to the next event, or on the approach from the value `w` at which the preceding events ended). Missing: the frames before a target that is scheduled for a later quantum (`C29_negated_target`, `C96_negated_sustain`), a ramp directly after a target (`C29_negated_ramp`), the half frame before each event (`C27_negated_end`).
- `Param.C96_release_partial`: Attack (to 1), decay (to `sus`) and release (to 0) of a note, spelled out: from the release on, the value is on the approach to 0 from a value `w`, which is the one of the decay at that time.
- `Param.C96_negated_sustain`: C96 is false while a sustain level waits for a release that is scheduled ahead: the note decays to 1/2 in the first quantum and should stay there until the release at frame 20, but from frame 8 on the value is 13/2.
- `Param.C96_live_partial`: C96 for events that are scheduled while the parameter is rendered, each one before its time: in every quantum the envelope of the events scheduled so far is played. As there, a-rate, events in the order of their times, no ramp directly after a target.

### C97 A ramp takes over from a running approach without a step

linearRampToValueAtTime or exponentialRampToValueAtTime called while a setTargetAtTime approach is running (with nothing scheduled after it): the ramp starts at the current time, at the value the approach has reached, and leads to the given value at the given time.

*Approach* (`Verif/Param`): Invariant Waiting of C96 with one more constructor: a running target that has to make way for a ramp; the new envelope starts with the value reached.

*Status*: partial. From the quantum after the call; any further events, also scheduled later. Missing: an approach within 1e-10 of its target counts as reached and the ramp then starts in the past, with a step (C97_negated_reached); an approach that has not started (C29_negated_ramp); k-rate.

- `Param.C97_turn_partial`: a ramp that is scheduled while an exponential approach is running starts at the value the approach has reached and at the current time (the beginning of the next quantum), so that the curve has no step; more events, that may again be scheduled while the parameter is rendered, follow as in C96. Missing: an approach that is so close to its target that it counts as reached (`C97_negated_reached`).
- `Param.C97_linear_partial`: A release by a linear ramp, spelled out: from the time of the call on, the value goes in a straight line from the value of the approach at that time to the end of the ramp, and stays there.
- `Param.C97_negated_reached`: C97 is false for an approach that counts as reached: from 0 to 1, reached in the first quantum (until frame 4); a ramp to 2 until time 20 that is scheduled at time 12, when the value has been 1 for a long time, does not start at 1, but at 3/2, where a ramp that starts at time 4 would be.

### C98 The sound does not depend on the order in which connections were made

Two programs that make the same connections in different orders (or whose render graphs hold the same nodes and connections in whatever order) and then send the same messages produce the same sound in every quantum.

*Approach* (`Verif/Graph`): Two steps of the loop of `render` commute if the nodes are not connected; any two orders that respect the connections are linked by such exchanges; a relation "same up to the order of connections" is kept by messages and quanta.

*Status*: partial. Processors arbitrary; sums at the inputs must not depend on the order (exact arithmetic, C13_order_partial). Missing, and false: cycles (C98_negated_cycle: which delay is cut depends on the order), registrations after connections of the same batch (C05_negated), three different channel counts in mode max (C13_negated_order).

- `Render.C98_history_partial`: C98 Two graphs with the same nodes and connections, made in whatever order, play the same sound for all time, whatever messages follow, as long as there are no cycles, nodes are registered before connections of the same batch (`Complete`, see C05) and the sums at the inputs do not depend on the order (`Orderly`, see C13). What is missing is false: see `C98_negated_cycle`, `C05_negated`, `C13_negated_order`.
- `Render.C98_connection_order_partial`: connections. A set of connections made in two different orders, followed by the same messages and quanta: the same sound, under the conditions of `C98_history_partial`.
- `Render.C98_negated_cycle`: C98 is false with cycles. Two delay nodes 12 and 13 feed each other and the destination, a source 11 feeds both. Which of the two is cut, and silenced, depends on which connection of the source was made first.

### C99 What is not connected to the destination is not heard

A part of the graph that is fed by the rest but has no connection into it (meters, analysers, prepared sources) is inaudible: leaving out its creation, the connections into it, its messages and its drops does not change the sound in any quantum, whatever its processors do, even if they panic.

*Approach* (`Verif/Graph`): Simulation between the run with and the run without the part: steps of its nodes are not noticed by the others, steps of the others agree; the order of the smaller graph is exchanged for the restricted order of the larger one by C98.

*Status*: partial. Same conditions as C98 (no cycles, complete orders, sums independent of the order), and no node lives on only because it feeds the inaudible part. False when an unrelated node is registered after connections of the same batch (C99_negated).

- `Render.C99_isolated_partial`: C99 Leave out everything that concerns a part `U` of the graph from which no connection leads to the rest: creation, connections into it, messages, drops. The sound is the same in every quantum, whatever the processors in `U` do. As for C98 there are no cycles, orders are complete and sums do not depend on the order; both runs go without a panic of the render thread (C07); and no node lives on only because it feeds `U` (`Tapped`). What is missing is false: see `C99_negated`.
- `Render.C99_negated`: C99 is false when the unrelated node 13 is created after connections of the same batch: it silences the others (the order of the nodes is incomplete, C05).

### C100 Live playback is the offline rendering

A running AudioContext writes to the device exactly what an offline context with the same graph and the same changes of the graph, in the same order, puts into its buffer: frame by frame and channel by channel, whatever the sizes of the device buffers. Partial quanta at the ends of callbacks lose, repeat or alter nothing, and with an untouched graph the two renderings agree without any condition on timing.

*Approach* (`Verif/Thread`): Both loops are shown to play the same list of quanta, each followed by a batch of messages: the messages polled at the start of a callback are moved to the end of the last batch. The device stream then is a prefix of the interleaved quanta (run_out), the offline buffers are prefixes of the channels (C17), and the numbers of quanta agree because less than a quantum is pending.

*Status*: proved. C100_graph is for the whole graph with its control side and all its messages, from the creation of the context on; C100_online_is_offline for any render function whose graph stays active. The offline rendering exists for some division of the messages over the quanta (for an untouched graph it is the rendering itself). Pauses are the subject of C103.

- `Thread.C100_online_is_offline`: whatever the sizes of the device buffers and whenever control messages that change the graph arrive: what has been written to the device is, frame by frame and channel by channel, the result of an offline rendering of the same graph (and clock) to which the same messages are delivered, in the same order, of as many frames as have been written.
- `Thread.C100_untouched`: C100 for a graph that is left alone: playing it live, in callbacks of any sizes, writes to the device exactly the buffer that an offline context with the same graph returns; in particular the offline rendering does not fail.
- `Whole.C100_graph`: C100 for the graph and all its messages: what an application does while a context plays can be done while an offline context with the same initial graph renders, in the same order, such that the buffers of the offline rendering (of as many frames as have been played) are what the device gets, frame by frame and channel by channel.

### C101 Louder sources, louder sound

If everything that the sources of a context play is multiplied by a factor, the sound of the context is multiplied by that factor, sample by sample, and nothing else changes: the same channels are silent, the same nodes are freed in the same quanta, rendering panics for the same histories.

*Approach* (`Verif/Engine`): The graph model is instantiated with the models of mixing and of the nodes (Verif.Engine.Model). Scaling is a homomorphism between two such systems (Verif.Graph.Hom: a map of processors, signals and messages that commutes with processing, summing and messages commutes with whole histories); the proof obligations are one scaling lemma per node and one for summing.

*Status*: partial. For graphs of the linear nodes whose processors are put into the engine: sources, gain, IIR and biquad filter, stereo panner, convolver, splitter, merger, destination, and (C101_louder_delays, C101_louder_delays_more) delay nodes, also in feedback loops; gains, coefficients, pan positions and delay times do not depend on audio signals. Missing: rounding. C101_louder_panner: with panners too, equalpower and HRTF (the convolution of the crate hrtf is any homogeneous machine).

- `Engine.C101_louder`: if all sources of a history are made `c` times as loud, the sound of the context is `c` times as loud, sample by sample, in every quantum and channel; nothing else changes: the same nodes are freed in the same quanta, the same channels are silent, the same histories make the render thread panic. For all graphs, with cycles or not, all channel configurations, connections to several inputs, changes of the graph while it plays.
- `Engine.C101_louder_more`: C101 for graphs of sources, gains, IIR and biquad filters, stereo panners, convolvers, splitters and mergers: if all sources of a history are made `c` times as loud, the sound is `c` times as loud, sample by sample; the same nodes are freed in the same quanta, the same histories panic.
- `Engine.C101_louder_delays`: graphs with delays and feedback. If all sources of a history are made `c` times as loud, the sound is `c` times as loud, sample by sample; the same nodes are freed in the same quanta, the same histories panic. The graph may contain delay nodes of any size, also in cycles. Nodes as in `C101_louder`.
- `Engine.C101_louder_delays_more`: delays with all linear nodes. As `C101_louder_delays`, also with biquad filters, stereo panners and convolvers.
- `Render.soundS_ofSem`: the sound of a history without shared memory
- `Engine.C101_louder_panner`: C101 with panners. If all sources of a history are made `c` times as loud, the sound is `c` times as loud, sample by sample; the same nodes are freed in the same quanta, the same histories panic. The graph may contain sources, gains, IIR and biquad filters, stereo panners, panners (`equalpower` and `HRTF`) that move in any way, convolvers, splitters, mergers, and delay nodes of any size, also in cycles.

### C102 Sources do not influence each other

Several sources together sound as the sum of the sounds of each alone: a graph of linear nodes renders the sum of two inputs as the sum of the two renderings, sample by sample, also when sources start, end or fall silent at different times, so that the number of channels and the silence shortcuts of nodes differ between the renderings.

*Approach* (`Verif/Engine`): A ternary relation between renderings (Verif.Graph.Trio) reduces the claim to each node and to the summing: signals of n channels or silence, the third the sum of the others. The relation of filters relates their memories channel by channel, a missing channel counts as zeros. Trio rests on translations of systems that are correct under an invariant (Verif.Graph.HomOn).

*Status*: partial. For nodes with channel count mode explicit, no dropped handles, no changes of channel configurations after creation; C102_superposition_delays_partial and C102_superposition_delays_more_partial: also with delay nodes, in cycles too. With mode max it is false (C102_negated_max): a filter whose channel count grows because a stereo source joins a mono one starts the new channel without the past of the mono source. With a delay node in mode max it is false as well (C102_negated_delay_max): when its input falls silent what is in the delay is mixed down to mono. With a convolver of two channels and a response of one channel it is false too (C102_negated_reverb): while nothing is connected to it the engine of the right channel stands still. Missing: rounding, delay times that depend on the signal. C102_superposition_panner_partial: with panners (equalpower) too. With a panner in mode clamped-max, the default, it is false (C102_negated_panner_clamped): one channel and two channels are panned by different rules, so that a stereo source joining in changes the level of a mono one. With panning model HRTF it is false even for a linear convolution (C102_negated_hrtf): tails are cut off or not, depending on whether another source plays.

- `Engine.C102_superposition_partial`: if in three renderings of the same graph the sources play `p`, `q` and `p + q`, the sound of the third is the sum of the sounds of the others: in every quantum, channel and frame. (And they have the same number of quanta and panic together.) Two sources together thus sound as each of them alone, added: let `p` be silent for one and `q` for the other. For all graphs of gain, IIR filter, splitter and merger nodes in mode `explicit`, with cycles, changing connections, and sources that are given something else to play.
- `Engine.C102_superposition_more_partial`: C102 with more nodes: if in three renderings of the same graph the sources play `p`, `q` and `p + q`, the sound of the third is the sum of the sounds of the others, in every quantum, channel and frame, for all graphs of gain, IIR and biquad filter, stereo panner, convolver, splitter and merger nodes in mode `explicit`, with cycles, changing connections and responses. Either convolvers have one channel (`M = 1`), or there are no responses of one channel: with those the sum is wrong, `C102_negated_reverb`.
- `Engine.C102_superposition_delays_partial`: C102 with delays and feedback: if in three renderings of the same graph the sources play `p`, `q` and `p + q`, the sound of the third is the sum of the sounds of the others: in every quantum, channel and frame. Graphs as in `C102_superposition_partial`, and with delay nodes of any size, whose delay times may change from frame to frame, also in cycles.
- `Engine.C102_superposition_delays_more_partial`: C102 with delays and all linear nodes: as `C102_superposition_more_partial` (gain, IIR and biquad filters, stereo panners, convolvers, splitters, mergers), and with delay nodes of any size, also in cycles.
- `Engine.C102_negated_max`: negated: with the default mode `max` of filters a source changes how another one is filtered. A mono source is heard in both channels of the destination; when a stereo source joins it, the filter gets a second channel, whose memory does not know the past of the mono source (iir_filter.rs l.363-370). In the second quantum the right channel is `4, 8` instead of `3 + 3, 4 + 6`.
- `Engine.C102_negated_reverb`: negated for a response of one channel and a convolver of two. The inputs are those of mode `explicit`: two channels while something is connected, otherwise a silence of one channel, in which the engine of the right channel stands still. Something plays on the right, is disconnected, and silence is connected; another source plays. Alone, the first is heard once and the second once; together, the rest of the first is heard again on the right with the second.
- `Engine.C102_negated_delay_max`: C102 does not hold for a delay node in mode `max`, the default: a sound on the left leaves the delay on both sides if the source is silent while the sound is in the delay, since silence has one channel and the ring is mixed down to it (delay.rs l.470-488). With a second source that plays in stereo meanwhile it leaves the delay on the left.
- `Engine.C102_superposition_panner_partial`: C102 with panners. As `C102_superposition_delays_more_partial` (gain, IIR and biquad filters, stereo panners, convolvers, splitters, mergers, delay nodes of any size, also in cycles), and with panners (`equalpower`) that move in any way.
- `Engine.C102_negated_panner_clamped`: C102 does not hold for a panner in mode `clamped-max`, the default. A panner at the place of the listener gets a sound of one channel and is heard with `√2 / 2` of its level on either side. If a source of two channels joins in that plays only zeros (and is not heard alone), the sound is mixed up to two channels and heard with its full level: panner.rs pans one channel and two channels by different rules (l.845-897).
- `Engine.C102_negated_hrtf`: C102 does not hold with HRTF, even if the convolution is linear. The panner counts the quanta of silence over its whole life (panner.rs l.696-710); once it has counted as many frames as the impulse responses have, the tail of a sound is cut off when the input becomes silent. A source that plays zeros (and is not heard alone) makes the tail of the other one audible again.

### C103 Pausing inserts silence and loses nothing

When a context is suspended and resumed (or closed) while it plays, the device gets the same audio as without the interruption, only with gaps of silence in between: no frame is lost, repeated or rendered differently because of a pause, also when the graph is changed during the pause and when the callbacks of the device do not fit the render quantum.

*Approach* (`Verif/Thread`): The log of quanta and gaps is compared with a sequential play of the same messages without gaps (induction over chunks, callbacks, runs); offline rendering ignores suspend and resume messages, so that the offline result is the concatenation of the quanta.

*Status*: proved. For messages that change the graph, suspend, resume and close, on a thread with a graph that is not in the middle of a quantum at the start. When the gaps begin and end is the subject of C16.

- `Thread.C103_pause`: whatever changes of the graph, suspend, resume and close messages arrive, and whenever: what the device gets is a sequence of quanta and gaps of silence (the last quantum may be incomplete), and the quanta, without the gaps, are the uninterrupted offline rendering of the same graph to which the same messages are delivered in the same order. No frame is lost, repeated or rendered differently because of a pause.
- `Thread.C103_untouched`: C103 for a graph that is left alone: however often playback is suspended and resumed, the quanta that are played are the quanta of the uninterrupted rendering, in order and without omission.

### C104 Dropped nodes are released

When the application has dropped the handles of a part of the graph and the sound of that part has ended, the render thread lets go of every node of it after a finite number of quanta, with its parameters, and hands every id back for reuse. The rest of the application may go on creating, connecting and dropping nodes meanwhile. Nothing leaks.

*Approach* (`Verif/Graph`): Liveness for arbitrary processors and arbitrary concurrent messages to other nodes: induction along the processing order of the dropped part (a node goes once all its senders have gone and its tail has ended), then the parameters, whose connections have gone with their nodes.

*Status*: partial. For histories without cycles in which every node is processed (C05), a dropped part that the rest does not feed, and processors whose tail is finite once their inputs are silent, or parameters of such nodes. C104_negated: nodes on a cycle without delay are never released, their ids never handed back; C104_stuck: the same for every node that the order leaves out.

- `Render.C104_released_partial`: Take a part of the graph (`old`) whose handles have all been dropped. The rest of the application may go on: create nodes (also with ids that have become free), connect, disconnect, control and drop them, as long as it sends nothing to the dropped nodes (it has no handle to do so) and its own nodes do not feed them. If every dropped node has a tail that is finite once its inputs are silent, or is a parameter of such a node, then after finitely many quanta none of them is left in the graph, for good, and all their ids have been handed back for reuse.
- `Render.C104_idle_partial`: C104 for an application that has dropped everything but the nodes with tags not in `old` (e.g. the destination and the listener) and does nothing more: the audio keeps running, and after finitely many quanta only those are left.
- `Render.C104_stuck`: A node that the order leaves out (it is on a cycle without delay, C04, or was forgotten, C05) stays in the graph as long as no connection is made or removed, its handle dropped or not.
- `Render.C104_negated`: C104 is violated for cycles without delay: two gains connected in a cycle, both handles dropped, all messages handled. However long the context runs, the two nodes are never released and their ids never handed back.

### C105 Nodes end by themselves

Every built-in processor that must outlive its input (a convolver, a compressor, an HRTF panner, a filter, a delay) or that plays by itself (the scheduled sources) asks to be kept only for a bounded time: once its input stays silent, or once its stop time or the end of its buffer has passed, `process` returns false after a number of quanta that the settings determine. So dropped nodes of these kinds are released.

*Approach* (`Verif/Graph`): A predicate `Dies step quiet n s` over arbitrary step functions: from s, with inputs that satisfy quiet, the n-th call at the latest returns false. Proved for the process functions of each node model by induction on the remaining tail; linked to the hypothesis of C104.

*Status*: partial. In exact arithmetic. Buffer sources end by themselves when they do not loop and the rate stays above a positive bound (provisos of C62), and whenever they have a stop time; filters end when they have no feedback (C105_negated_integrator: an integrator never ends; other filters with feedback depend on rounding and are not covered). For delays see C35_shutdown_exact. C105_released_partial and C105_idle_partial combine this with C104 for whole graphs of the engine of C101.

- `Tail.C105_convolver`: Whatever a convolver has played, it ends within as many quanta of silence as its impulse response needs, and one more.
- `Tail.C105_compressor`: Whatever a compressor has been fed, it ends within as many quanta of silence as its delay line has.
- `Tail.C105_panner`: Whatever a panner has played and wherever it and the listener move: with the equal-power model it ends at once, with the HRTF model within as many quanta of silence as the impulse responses need, and one more.
- `Tail.C105_const`: A constant source with a stop time ends in the quantum that reaches it, whether it has been started or not and whatever its offset does.
- `Tail.C105_osc`: An oscillator with a stop time ends in the quantum that reaches it, whether it has been started or not, whatever its frequency and detune do, and however the phase is rounded.
- `Tail.C105_buffer_stop`: A buffer source with a stop time ends in the quantum after the one that reaches it, whatever it plays, looping or not, started or not, and whatever playback rate and detune do.
- `Tail.C105_buffer_partial`: A buffer source that does not loop and always plays forwards, at `low` or faster, ends by itself: after the quantum that has the frame in which the buffer is used up at the slowest rate, the source has ended, its ended event has been sent, and `process` returns false from then on. (The provisos are those of C62.)
- `Tail.C105_fir_partial`: A filter without feedback coefficients, whatever it has been fed, ends within as many quanta of silence as it has coefficients to shift out, and one more.
- `Tail.C105_negated_integrator`: C105 fails for filters with feedback: the integrator `y[n] = x[n] + y[n - 1]`, which the validation accepts, never ends once it has heard something. (The numbers are exact in `f64`, too.)
- `Tail.C105_released_partial`: with C104. In graphs of sources, gains, splitters, mergers and filters, dropped nodes are released after finitely many quanta, whatever the rest of the application does: no assumption on the tails is left but that sources end and filters have no feedback.
- `Tail.C105_idle_partial`: The same for an application that has dropped everything but the destination and does nothing more: after finitely many quanta only the destination is left.

### C106 Echoes: a delay in a feedback loop

When the output of a delay node goes through a gain back into the delay, every frame of the output is what went into the delay one delay time earlier: the input plus the output times the gain. So with a constant delay of D frames and gain g the k-th echo of the input sounds after k*D frames with the factor g^(k-1); the loop never exceeds M/(1-g) for inputs up to M, and dies away by the factor g per delay when the input has ended. Delays shorter than a quantum count as a quantum.

*Approach* (`Verif/Delay`): The closed loop of reader, gain, sum and writer as a recursive function on the model of the delay node; refinement to the histories of C35 with the writer inputs determined by the outputs, then induction over frames.

*Status*: proved. Exact arithmetic; the loop has a constant number of channels; the gain is the factor that the gain node applies (C40). The order reader, gain, writer is that of the graph (C01, C03; example).

- `Delay.C106_recurrence`: The feedback loop, for every input, every delay curve and every gain curve: it runs without a fault, and every frame of the output is what went into the delay one delay earlier (on the straight line between two frames, if the delay is not a whole number of frames). What goes in is the input plus the output times the gain. A delay shorter than a quantum counts as a quantum.
- `Delay.C106_echoes`: With a constant delay of `D` frames and a constant gain the output is the sum of the echoes: the `k`-th echo is the input `k * D` frames earlier, times the gain to the power of `k - 1`.
- `Delay.C106_stable`: The loop is stable: with inputs up to `M` and gains up to `g < 1` the output never exceeds `M / (1 - g)`, whatever the delay curve. When the input has ended, the output dies away: by the factor `g` with each longest delay `L`.

### C107 Nodes compute with the parameter values of the same quantum

When a node is processed, the AudioParam values it reads are those the parameter has computed in this very quantum, from its automation and from the signals that the nodes connected to it have produced in this very quantum: modulation has no latency of a quantum. For a gain node the output at every frame is the input at this frame times (automation value at this frame + sum of the modulating signals at this frame, limited to the nominal range); for a k-rate parameter the values of the first frame count.

*Approach* (`Verif/Graph`): Invariant of the render loop: a connected parameter comes before its owner, keeps its place because it has an edge and a tail, and its buffer is not touched until the owner reads it. Then an instance of the graph with parameters as nodes: refinement of the mixing of the inputs (C12) and of `mix_to_output` (C23) to a sum frame by frame.

*Status*: proved. Data flow for processors of any kind; both nodes are in the order (nodes in a delay-free cycle are muted, C55). Modulation for gain nodes, in exact arithmetic, up to the shortcut for gains near 0 and 1 (C40).

- `Render.C107_params_are_this_quantum`: C107 (data flow). Let `p` be a node that is connected to node `i` (the parameter and its owner), both in the order. Then `p` is processed before `i`. It finds at its inputs what was there at the start of the quantum, mixed with what the nodes before it have sent to it in this quantum, and its processor is as at the start of the quantum. When its processor does not panic and returns true (parameters always do, param.rs l.701), node `i` reads, when its turn comes, exactly the buffer that `p` has produced in this quantum. The inputs of `i` are those of the quantum, too.
- `Engine.C107_modulation`: C107 (modulation). Take a gain node `i` and its gain parameter `p` in any graph, in any quantum, both in the order and `p` connected to `i`. Whatever is connected to the parameter, the output of the gain node at every frame of the quantum is its input at this frame times the value of the parameter at this frame: the automation value plus the sum of the signals connected to the parameter in this very quantum, limited to the nominal range (up to the threshold of the shortcut for gains near 0 and 1).

### C108 The same automation later gives the same values

Automation does not depend on the time of day: when the same sequence of scheduling calls, value changes, rate changes and rendered quanta is repeated some quanta later, with all times later by as much, the parameter has the same value in every frame and the same attribute value, that much later, and panics if and only if it did before.

*Approach* (`Verif/Param`): Commutation: every function of the processor (overlap checks, implicit events, stable sort, cancel, hold, each kind of event, the loop over the events of a quantum) commutes with adding a constant to all times; then induction over the history.

*Status*: partial. For calls with times after 0, in exact arithmetic on times and with any arithmetic on values that only depends on the time since the start of an event (`invariant_exact`). With time 0 the claim is false, proved by a counterexample: the code takes the time 0 to mean "now".

- `Param.C108_later_partial`: take any history of a parameter: calls of the scheduling methods with times after 0, changes of the value and of the automation rate, and rendered quanta; it ends with a quantum. Wait for `k` quanta, then repeat the history with all times later by as much: the parameter panics when it panicked before, and otherwise gives the same value in every frame of the last quantum, `k` quanta later, and has the same attribute `value`.
- `Param.invariant_exact`: The formulas of the automation, l.64-120, depend on the time since the start only.
- `Param.C108_negated_now`: C108 is false for the time 0: a call with time 0 after the first quantum means "now" (param.rs l.1056-1062), not the time 0. After one quantum of 2 frames at 1 Hz, `set_value_at_time(0, 0)` and a ramp to 6 at time 4 give 0 and 3 in the next quantum; the same two seconds later gives 3 and 9/2.

### C109 The device plays the graph

Whatever an application does with nodes and connections, from any number of threads and at any moment, and whatever the sizes of the callbacks of the audio device: there is one order in which the operations happen and render quanta take place, with the operations in the order in which they were made, such that the device gets exactly the output of the destination for these quanta, one after the other, at the right frame numbers, interleaved, with gaps of silence only if the context is suspended or closed. All of every device buffer is written, and no render thread panics unless a processor does.

*Approach* (`Verif/Whole`): The render thread model is instantiated with the whole system model of the graph (graph, queue, administration), a panic being an explicit state; processors get the frame number. What the thread plays is shown to be the sound of a history of the system with the same operations in the same order, by pulling the batches of messages back to events; panic freedom from the invariant of the system, absence of gaps from the presence of the destination.

*Status*: proved. C109_device holds for all processors, with a panic of the history as a panic of the thread; C109_device_safe and C109_live are for processors that do not panic and for creations that fail only for ids below 64 (C10 shows why). Operations of other threads are placed at the polls of the queue; they only touch the queue and the administration. When gaps begin and end is the subject of C16.

- `Whole.C109_device`: Whatever an application does, and whenever, and whatever the sizes of the callbacks of the device (whole frames): the render thread writes all of every buffer; there is a history in which the same operations happen in the same order, with quanta in between, such that the device gets, in order, the output of the destination for each quantum of this history, with gaps of silence in between (and a part of the last quantum is left for the next callback). If the history panics the thread has panicked (in the model it stays in the state `none`), otherwise it is in the state that the history leads to.
- `Whole.C109_device_safe`: C109 for processors that do not panic (every handle is dropped at most once, creation fails at most for ids below 64, see C10): nothing panics, and the device gets the sound of a history with the same operations in the same order.
- `Whole.C109_live`: C109 for a context that is neither suspended nor closed: the device gets, without any gap, sample by sample, the output of the destination in the quanta of a history with the same operations in the same order; the number of quanta is such that less than one of them is left for the next callback.

### C110 A piece can be played at any time

If an application waits, and then does what it would have done at once - create, connect, disconnect and drop nodes, start and stop sources, schedule automation, between the same render quanta - with all times later by the duration of the wait, the context plays silence and then exactly the same sound. Whether the render thread panics does not depend on the wait.

*Approach* (`Verif/Whole`): An engine with all processors that look at the clock (models of Source and Param) and arbitrary others. A shift of all times by the wait commutes with processing and messages wherever the invariants of the timelines hold (source by source: Verif/Source/Later.lean; parameters: Verif/Param/Later.lean); a translation that commutes carries over to whole histories (Verif/Whole/Shift.lean, with the processors that fulfil the invariant as a subtype). A waiting graph is silent and stays as it is. Negation: kernel computation at frame 1240313*128.

*Status*: partial. C110_later_partial: exact arithmetic; times of automation events after 0 (0 means now, C108); buffer sources only with a comparison of times that is the same at all times. The code compares times of buffer sources with a relative tolerance (crate almost, 2^-26): C110_negated_buffer shows that after an hour a sound that starts between two frames begins two frames too early.

- `Whole.C110_later_partial`: A piece (any history of an application: nodes and parameters are created, connected, disconnected, scheduled, and dropped, between any quanta) that is played after a wait of `k` quanta, with all times later by the duration of the wait, sounds the same, after `k` quanta of silence. The render thread panics if and only if it does without the wait. Missing: buffer sources with a comparison of times with a relative tolerance, see `C110_negated_buffer`; events at time 0, see `C108_negated_now`; rounding.
- `Whole.C110_negated_buffer`: C110 does not hold for buffer sources with the tolerant comparison of the code: a sound that starts between two frames begins at frame 11 (with interpolated samples). After a wait of an hour it begins two frames too early (and without interpolation).

### C111 Rendering solves the equations of the graph

In every quantum of a graph without cycles, the output of every node is its processor applied to the sum, per input, of the outputs that the connected nodes have in the same quantum and to the values its parameters have in the same quantum. These equations have exactly one solution, in whatever order the nodes are listed; the rendered output is that of the destination in this solution, and the nodes after the quantum are those of the solution without the nodes that are of no use any more (and without the connections to them).

*Approach* (`Verif/Graph`): Specification: equations between the results of the processors, without an order. Loop invariant over the processing order (Upto): processed nodes have solved their equations, nodes to come hold the sum of what was sent to them so far. Uniqueness by induction along the order.

*Status*: proved. For graphs as in C05 (no cycles, complete order, parameters connected to their nodes). C111_equations: with the processing order of the code, for arbitrary processors and mixing; C111_any_order: for every listing, if mixing does not depend on the order (C12). With cycles the result depends on the order (C98_negated_cycle), unreachable parts see C05_negated.

- `Render.C111_equations`: take any graph without cycles whose nodes will all be processed (C05), with processors that read only parameters that are connected to them. There is an order of its nodes, for the order of the sums, such that the equations of the graph have exactly one solution, and rendering a quantum computes it: the destination puts out its output in the solution, and the nodes are as the solution says, with new states and outputs; those that are of no use any more have left. Rendering fails only if the destination has left (or has no output).
- `Render.C111_any_order`: C111 if sums do not depend on the order (C13): whatever the order `ks` in which they are written down, the equations of the graph have exactly one solution, and rendering a quantum computes it.

### C112 A score sounds as written

For a graph of notes (a source into a gain node whose gain is an envelope, all gain nodes into the destination) and any sequence of messages to them between the render quanta (start, stop, automation events), rendering does not panic and every frame of the output is the sum over the notes of what the source plays at that time times the value of the envelope at that time. What a source plays and the values of an envelope only depend on the messages to them, not on the other notes. For constant sources: the offset, between the scheduled start and stop; for envelopes: the scheduled ramps, held values and approaches.

*Approach* (`Verif/Whole`): Specification: sources and parameters alone with their own messages (Studio.played, Par.values), sums over notes. Each quantum of the engine is read as a solution of the equations of the graph (C111); by induction over the history every processor of a note is in the state it would have alone. Band: messages that are only posts keep the shape of the graph, so that no hypothesis about later graphs is left.

*Status*: partial. Exact arithmetic. C112_score: notes may be added and removed while it plays; C112_band: a fixed set of notes, hypotheses on the initial graph only; C112_tones, C112_constant, C112_envelope: explicit for constant sources and live envelopes; C112_oscillator_partial: for oscillators of constant frequency (except starts in the last frame of a quantum, C44_negated_start). Missing: equal up to the threshold of the gain node (1e-6 per note, src/node/gain.rs l.166: with equality the claim is false, C40_negated_exact), stereo destination with speakers mixing and mono sources, nothing connected to the parameters of a note, handles not dropped meanwhile (sources that end by themselves are C105).

- `Whole.C112_score`: a score sounds as written. Take any history of messages and quanta, and a quantum in which the gain nodes of some notes, and nothing else, are connected to the destination. The notes may have come at different times, and other nodes may be anywhere in the graph. Both channels of the output are, at every frame, the sum over the notes of what the source of the note plays there times the value of its envelope there; source and envelope as they are alone, with the messages they got. (Up to the threshold of the shortcut of the gain node for values near 0 and 1.)
- `Whole.C112_band`: C112 for a band that is set up once: the notes are in the graph at the beginning (and possibly other nodes), connected to the destination; from then on nodes of the notes get messages, nothing else happens. Then no message and no quantum makes the render thread panic, and in the quantum after the messages both channels of the output are, at every frame, the sum over the notes of what the source of the note plays there times the value of its envelope there. Nothing is assumed about the graph but at the beginning.
- `Whole.C112_tones`: C112 for tones of constant sources: the output at every frame is the sum over the tones of offset times envelope, each tone from its start time to its stop time, with the times of the messages so far.
- `Whole.C112_constant`: constant sources: the wave of a note is one channel; it has the value of the offset between the start and the stop time that the messages so far have set, and is zero otherwise.
- `Whole.C112_envelope`: envelopes: the level of a note follows the events that were scheduled. For `m` quanta nothing is scheduled on the gain of the note, then events arrive, each one before its time (`ops`: the events and the quanta in between). In the present quantum the level is the value of the envelope of these events (`PlaysAt`, see C96), within the nominal range of the parameter.
- `Whole.C112_oscillator_partial`: oscillators: a new oscillator that gets the messages `ms` before the quantum at frame `f`, then those of `bs`, with at most one start message, and parameters without automation that result in the frequency `f0` below half of the sample rate. The wave of the note is one channel; at every time `t` from the start time `a` to the stop times it is the waveform of type and wave that were set at the phase `f0 * (t - a)` modulo 1; it is zero before the start and from the last stop time on. Missing: start times within less than one frame before the begin of a quantum, see `C44_negated_start`.

### C113 A program of notes plays as written

An application creates notes (each a ConstantSourceNode into a GainNode into the destination), sets their start and stop times and schedules set values and ramps on offset and gain, in any order, and then renders. Nothing panics; the rendered buffer has two channels of the requested length, and every frame of both channels is the sum over the notes of the envelope of the offset (within start and stop) times the envelope of the gain, up to the threshold of the gain node (1e-6 times the sum of the source magnitudes). The envelopes are given by the events in time order. The same holds for every frame that a live context writes to its device, whatever the sizes of the buffers of the device, if the notes are set up before the first callback.

*Approach* (`Verif/Whole`): Specification: Voice.source, Voice.level (envelopes of sorted schedules) and their sum; calls lists what the constructors and methods do. The calls are run on the model of the control side (calls_run), the messages on the graph (scene_fold: invariant Scene, explicit contents of every slot), C112_tones and C26_C27_new give the quanta (Scene.quantum), C17_exact the offline buffer, C100_untouched the device.

*Status*: proved. Exact arithmetic (field K, with floor); no hypothesis about the graph or intermediate states. Restricted, as stated, to set values and ramps (times not negative, exponential ramps between values of the same sign) and to messages that have been handled before the first quantum.

- `Whole.C113_program`: For every list of notes and every length: the application creates and connects the nodes of all notes and schedules everything, then renders. Nothing panics, and the result is a buffer of two channels of the requested length, which at every frame contain the sum of the notes: each is the envelope of its offset times the envelope of its gain, from its start to its stop time (up to the threshold of the gain node for gains near 0 and 1). The envelopes are those of the events in time order.
- `Whole.C113_live`: C113 for a live context: whatever the sizes of the buffers of the device, if the notes have been set up before the first of its callbacks, the device gets, frame by frame (two samples per frame), the same sum of the notes.

### C114 A program of oscillators and constant sources plays as written

An application creates notes, each an OscillatorNode or a ConstantSourceNode into a GainNode into the destination, in any number and order; it sets start and stop times and schedules set values and ramps, in any order, on frequency, detune, offset and gain; then it renders. Nothing panics; the buffer has two channels of the requested length, and every frame of both is the sum over the notes of the wave of the source times the envelope of the gain, up to the threshold of the gain node (1e-6 times the sum of the source magnitudes). The wave of an oscillator at a frame is its waveform (sine table, square, sawtooth, triangle or the periodic wave) at the phase that is the sum of the computed frequencies of the frames since the start, zero before the start, from the stop on, and where the frequency is at or beyond Nyquist. The same holds for every frame that a live context writes to its device, whatever the sizes of its buffers, if the notes are set up before the first callback.

*Approach* (`Verif/Whole`): Specification: Part.wave (Source.tuneAt for oscillators), Part.level; Part.calls lists what constructors and methods do, for any number of parameters of a source. ecalls_run runs the calls on the control side, Part.msgs_run/escene_fold the messages on the graph (Built: the slots from an id on are those of a list; EScene: contents of every slot), EScene.fit/sits/begins/atDest give the hypotheses of C112_band, Part.sings the wave (tune_block and C26_C27 for the parameters), deliver_offline/deliver_live carry statements about frames of quanta to buffer and device.

*Status*: proved. Exact arithmetic (field K, with floor). No hypothesis about the graph or intermediate states. As stated: set values and ramps (times not negative, exponential ramps between values of the same sign), start times not negative, messages handled before the first quantum. Start times between the last frame of a quantum and the next quantum count as the begin of that quantum (see C44_negated_start); the specification says so (onset).

- `Whole.C114_program`: For every list of notes (constant sources and oscillators, in any order) and every length: the application creates and connects the nodes of all notes and schedules everything, then renders. Nothing panics, and the result is a buffer of two channels of the requested length, which at every frame contain the sum over the notes of the wave of the source times the envelope of the gain (up to the threshold of the gain node for gains near 0 and 1). The wave of an oscillator is its waveform at the phase that is the sum of its frequencies so far, with all automation of frequency and detune. The number of `recv` only has to suffice for all messages.
- `Whole.C114_live`: C114 for a live context: whatever the sizes of the buffers of the device, if the notes have been set up before the first of its callbacks, the device gets, frame by frame (two samples per frame), the same sum of the notes.

### C115 A k-rate parameter has in every quantum the value of its automation at the beginning of the quantum

An AudioParam with automation rate k has in every render quantum one value for all frames: the value that the scheduled events give at the time at which the quantum begins (set values hold, linear and exponential ramps interpolate between the events before and after). In which order the events were scheduled before rendering does not matter. For all events (also targets, value curves, cancellations): if an a-rate parameter with the same history does not panic, then a k-rate parameter does not, and the value of a k-rate parameter in a quantum is that of the a-rate parameter in the first frame of the quantum. Excluded are values that are set exactly at the beginning of a quantum: they take effect one quantum late unless another event falls into the quantum before.

*Approach* (`Verif/Param`): Specification: ideal, a recursion over the events in time order without rounding. Slow: invariant of the state of the parameter at the beginning of a quantum (last event before, remaining events give the same ideal value from now on); loop_ideal (induction over the timeline), block_ideal. handle_slow, loop_slow, run_slow: an a-rate parameter and a k-rate parameter with the same history have the same timeline, last event and intrinsic value.

*Status*: partial. Code violates it for set_value_at_time exactly at the beginning of a quantum: is_constant_block (event.time >= next_block_time) leaves the event in the timeline, so that the quantum that begins with it still has the old value (C115_negated_boundary); with another event in the quantum before it is in time. Exact arithmetic; the power function satisfies x^0 = 1, x^1 = x. Not more than one event at a time at which a quantum begins. C115_sampled_partial excludes in addition events within the first half frame of a quantum and at its begin (a-rate parameters round event times to frames).

- `Param.C115_exact_partial`: the k-rate parameter of a new node. Its value is set to `w` by the constructor, the events `es` (set value events and ramps) are scheduled in any order, then quanta are rendered. Nothing panics, and in every quantum the parameter has one value for all frames: that of the automation at the beginning of the quantum. Excluded are values that are set exactly at the beginning of a quantum (see `C115_negated_boundary`).
- `Param.C115_sampled_partial`: whatever is scheduled for a parameter and whatever is rendered, with any events at any times and any arithmetic of values: if nothing panics with an a-rate parameter, then nothing panics with a k-rate parameter. In the second of two quanta without messages in between the k-rate parameter has one value for all frames, and (clamped, as the output is) this is the value of the a-rate parameter at the first frame - unless an event begins, ends or replaces another one in the first half frame of the quantum.
- `Param.C115_negated_boundary`: The proviso of `C115_exact_partial` is needed: the value 5 is set at time 2, with which the third quantum begins, but it is not the value of the third quantum but that of the fourth. If another value is set during the second quantum, then the value 5 is that of the third quantum.

### C116 A program of notes with buffer sources, oscillators and constant sources plays as written, offline and live

An application creates any number of notes (a constant source, an oscillator or an AudioBufferSourceNode with a mono buffer, each through its own gain into the stereo destination), sets playback rate, detune, loop points, offset, duration, start and stop times and schedules set values and ramps on all parameters. Nothing panics, and at every frame both channels contain the sum over the notes of what the source must play there times the envelope of its gain: a buffer source plays its buffer (interpolated linearly) at the position that follows from start time, offset, the sum of the computed playback rates of the quanta so far and the loop. This holds for an offline rendering of any length, and for a live context with any sizes of the device's buffers.

*Approach* (`Verif/Whole`): Specification: Clip.plan (what is asked for) and Source.Plan.Reads of C62; Heard: the sum over the notes. Part.sings: the source of a note as a function of the number of quanta; for buffer sources Going (BufferLive: state after any number of quanta, no fault, one channel of 128 frames) and setting_held (C115: k-rate values). EScene.quantum composes with the graph; deliver_offline and deliver_live with the threads, as for C114.

*Status*: partial. Exclusions (each is a known violation of the code with its own negation or is needed by one): set values of rate or detune at time 0 or exactly at the beginning of a quantum (C115), loops that as counted by the code do not fit into the buffer (C34), the frame after the last one of a loop, a duration for a looping source at natural rate (C33), start times between the last frame of a quantum and the next quantum (C62), a source that changes direction without a loop. Mono buffers set with the options; exact arithmetic: tolerant comparisons are exact, up to the threshold of the gain node for gains near 0 and 1. Nodes are created before rendering begins.

- `Whole.C116_program`: For every list of notes (constant sources, oscillators and buffer sources, in any order) and every length: the application creates and connects the nodes of all notes, sets the buffers and schedules everything, then renders. Nothing panics, and at every frame of both channels there are values, one for each note, that its source must play there, whose sum, each times the envelope of the gain, is what is heard (up to the threshold of the gain node for gains near 0 and 1). A buffer source must play its buffer at the position that follows from start time, offset, the playback rates and detunes of the quanta so far and the loop points (`Source.Plan.Reads`).
- `Whole.C116_live`: C116 for a live context: the device gets, frame by frame, what is described in `C116_program`, whatever the sizes of its buffers.

### C117 Oscillators stay in tune although the phase is rounded

An oscillator accumulates its phase in f64, with a rounding in every frame. Still, however long it plays, with whatever automation of frequency and detune, each sample of a shape without jumps (sine, triangle, a custom wave) is that of an oscillator with exact arithmetic up to M*u*((1+B)*(5+3n)+2), where u is the unit of rounding (2^-53), n the number of frames since the start time, B a bound of the phase increments (1/2 up to Nyquist), and M how much the shape can rise or fall per period (4 for the triangle). The error grows linearly with the time, not faster, and it is zero before the start. A sawtooth and a square jump, but their correction at the jump makes them continuous: for frequencies that are positive, with phase increments of at least A, the same holds with M = 9/A and 24/A. Triangle, sawtooth and square oscillators never panic by rounding.

*Approach* (`Verif/Source`): Float/Error: Near rd u, relative error u, holds for rounding to p bits with u = 2^-p (rnd_near). Two runs with the same history side by side (Osc.Drift): all fields equal but the phase, which is around the exact one modulo 1 by drift = u(1+B)(5+3n); kept by a frame (sample_drift), a quantum on the fast and slow path (block_drift) and lists of quanta. The exact run is that of C44_tune. Shapes: triangle is 4-Lipschitz on the circle, a table with interpolation by its steps (lookup_close). Sawtooth and square: the correction at the jump is a difference of two squares bump, each Lipschitz in the phase with a constant of the order 1 / increment; the corrected shape is 0 on both sides of the jump, so it is Lipschitz around the period (saw_close), and it depends little on the rounding of the increment (saw_incr).

*Status*: partial. Rounded: increment, first phase, sum, unrolling, position in the table. Exact: times, computed frequency (comp is any function), the sample computed from phase and position, and its conversion to f32. Sine and custom waves: if the run does not panic (rounding can make a phase 1 and the lookup panic: C44_negated_rounding). Sawtooth and square: C117_corrected, for frequencies that are positive and bounded below; without that it is false (C117_negated_jump), because only positive increments are corrected at the jump.

- `Source.C117_tune`: an oscillator as in C44, whose phase is computed with a rounding of relative error `u` (`f64`: `2 ^ (-53)`, see `Float.rnd_near`), and whose increments of the phase are at most `B` (1/2 for frequencies up to Nyquist). The shape is without jumps: it rises or falls at most by `M` per period (triangle: 4; sawtooth: 9 divided by the smallest increment `A`, which is positive; square: 24 divided by it). If it does not panic (see `C44_negated_rounding`), every sample is that of the exact oscillator up to `M` times `u * ((1 + B) * (5 + 3 * n) + 2)`, where `n` is the number of frames since the start time.
- `Source.C117_triangle`: a triangle oscillator does not panic with any such rounding, and after `n` frames it differs from the exact one at most by `4 * u * ((1 + B) * (5 + 3 * n) + 2)`.
- `Source.C44_negated_rounding`: C44 is false with the rounding of `f64`: a small negative frequency makes the phase 1, and the next lookup is out of bounds.
- `Source.C117_corrected`: the corrections at the jumps of a sawtooth make it as robust: for frequencies that are positive, with increments of the phase from `A` to `B` (below Nyquist), it does not panic, and after `n` frames it differs from the exact one at most by `9 / A * u * ((1 + B) * (5 + 3 * n) + 2)`; a square by `24 / A * u * ((1 + B) * (5 + 3 * n) + 2)`.
- `Source.C117_negated_jump`: without the lower bound on the frequency this is wrong: at a negative frequency the sawtooth is not corrected, and a phase that is smaller by any amount can turn the sample around, from near -1 to 1.

### C118 Double precision scheduling: at most one frame off, and handover without gap or overlap

With times in f64 (the time of a quantum is frame/sampleRate, that of a frame is accumulated), constant sources and oscillators start and stop at most one frame off the requested time, for the first 10^13 frames (six years at 48 kHz). When one of them stops at a time t and another one starts at t, exactly one of them plays at every frame, for every t: two constant sources together play what a single one plays. (For buffer sources this is false: a frame can be lost or played twice.)

*Approach* (`Verif/Source`): Const.processR, oscGate: the code with a rounding at every operation on times; processR_id: the exact model is the instance id. Rounds: monotone, idempotent, relative error u; Calm: a frame is longer than the errors of a quantum (calm_f64). begin_le and lt_end: the accumulated times stay within the quantum, hence fast path, early return and loop agree (processR_spec, oscGate_spec) on: the accumulated time is in [start, stop); it is off by less than a frame (time_close).

*Status*: partial. Times are rounded as in the code, exponents unbounded. Oscillator: the gate only (the frames that are not silenced), the waveform is C44/C117. Violated for buffer sources: C118_negated_kinds (a frame is lost between a buffer source and a constant source), C118_negated_buffers (a frame is played twice by two buffer sources).

- `Source.C118_samples`: samples with rounded times: after any calls of start and stop and any number of quanta, frame `i` of the next quantum has the value of the offset parameter if its accumulated time is in `[start, stop)`, and is zero otherwise. That time is off by less than a frame.
- `Source.C118_frame`: start and stop are off by at most one frame: a frame plays if the start time is at least a frame earlier and the stop time at least a frame later; it is silent if the start time is at least a frame later, or the stop time at least a frame earlier.
- `Source.C118_handover`: handover: one constant source stops at a time `t`, another one starts at `t`. Together they play in every quantum what a single source plays: no frame is lost and none is played twice, for every `t` between start and stop, and every rounding of times.
- `Source.C118_kinds`: handover between an oscillator and a constant source: the oscillator stops at `t` and the constant source starts at `t`, or the other way round. In every frame of the time in between the other end points, exactly one of them plays. (`gate` of the oscillator; the constant source plays when its output is the offset, here 1.)
- `Source.rounds_rnd`: rounding to `p` bits
- `Source.calm_f64`: the clock of `f64` is good for 10^13 frames, six years at 48 kHz
- `Source.C118_negated_kinds`: C118 is false between a buffer source and a constant source: the buffer source computes the time of frame `i` as `block_time + i * dt` (`/repo/src/node/audio_buffer_source.rs` l.647, l.666-671), the constant source accumulates. At 44.1 kHz, the buffer source stops at frame 13 (the time of which is `f64 (13 / 44100)`), and a constant source that starts at this time starts a frame later: frame 13 is lost.
- `Source.C118_negated_buffers`: C118 is false between two buffer sources, because a start time that is almost reached is taken as reached (`/repo/src/node/audio_buffer_source.rs` l.649-653), a stop time is not. At 48 kHz the time of frame 5 is just before `f64 (5 / 48000)`: a source that stops then (`a`) still plays at frame 5, and so does one that starts then (`b`, from its first frame). The frame is played twice.

### C119 Mixing and summing in single precision is accurate

The input of a node, summed and up- or down-mixed in f32, has the same channels as the sum of exact arithmetic, and each sample differs from it by at most (1+u)^(5n)-1 times the corresponding sum of the absolute values, where n is the number of connections and u the relative error of a rounding (2^-24); for a single signal by (1+u)^4-1. So the input is the sum that the Web Audio specification prescribes up to this error, and the order of the connections changes it at most by twice the error (but it does change it).

*Approach* (`Verif/Mix`): sumIntoR: the model of Mix.Model with a rounding after every operation; sumIntoR_id: without rounding it is sumInto. Err u k x y a: x is within k relative errors of y relative to a; every operation raises k. Likes: the rounded, the exact and the absolute buffers have the same channels and pointers (so all take the same branches), sum_likes by induction over the connections.

*Status*: partial. Exponents of floating point numbers are unbounded (no overflow, no subnormal numbers). C119_sum has no restriction of the layouts; agreement with the specification (C119_mix_partial, C119_spec_partial, C119_layouts_partial) where exact arithmetic agrees with it: C12, C13. That the order of connections does not matter at all is false: C119_negated_order.

- `Mix.C119_mix_partial`: one signal. Bringing a signal of any number of channels to any other number in rounded arithmetic gives every sample of the mixing rules of the Web Audio specification, up to four relative errors of a rounding. (Not from 4 to 5 channels: `C12_negated`.)
- `Mix.C119_sum`: all inputs. The input of a node computed in rounded arithmetic has the same channels as that of exact arithmetic, and every sample differs by at most `5 n` relative errors of a rounding, for `n` connections, relative to the sum of the absolute values.
- `Mix.C119_spec_partial`: The input of a node is the specified sum of the connected signals up to `5 n` relative errors of a rounding (`n` connections), relative to the specified sum of the absolute values. The restriction of the layouts is that of `C13_sum_partial`.
- `Mix.C119_layouts_partial`: all speaker layouts. As `C119_spec_partial` for signals of any number of channels, with the restrictions of `C13_layouts_partial`.
- `Mix.C119_order_partial`: order. The order in which the connections of an input are summed changes a sample by at most `10 n` relative errors of a rounding.
- `Mix.sumIntoR_id`: without rounding this is the model of `Verif.Mix.Model`
- `Mix.C119_negated_order`: The sum depends on the order: `C119_order_partial` is not zero.

### C120 A delay node delays in every graph

In any graph and any sequence of quanta, whatever is connected, disconnected, created or freed around it, the output of a delay node at every frame is what was sent to its input earlier: the input at this frame minus the delay, between frames on the straight line, mixed to the channel layouts of later inputs, and silence before it was created. If the node is in a cycle (now or earlier) the delay is at least one quantum. Other delay nodes do not disturb it, and its two halves never panic.

*Approach* (`Verif/Engine`): Graph.SharedProofs: the loop of Graph::render for processors with shared memory keeps the invariant of the loop; a part of the memory is changed only by the processors that own it (Part, loop_quiet). quantum_delay: in one quantum the memory of the delay node makes exactly one turn of the stand-alone delay line (Verif.Delay), forward or cycle according to the order of processing; by induction over the quanta with the invariant Inv of C35.

*Status*: partial. C120_delay: any graphs, any changes between quanta; C120_alone: a graph that is left alone (assumptions on the first graph only); C120_input: what the writer gets is the sum of what was sent to it. The quanta are those in which both halves are in the graph with their handle alive and are in the order of processing (not muted by a cycle without delay); what happens after the handle is dropped is C35_shutdown. Missing: rounding (exact arithmetic). The values of the delay parameter are given per quantum (C33 and C115 for how they arise) and fit into the ring (C35_ring_size: they do up to maxDelayTime).

- `Engine.C120_delay`: Take any sequence of quanta, with any changes of the graph in between, in which the graph contains a delay node that is new at the beginning, with both halves in the order of processing. In every quantum the writer gets a signal, and the output of the reader, at every frame, is what the writer got earlier: the signal at this frame minus the delay (on the straight line between frames, mixed to the layouts of the later inputs, silence before the beginning); if the reader is processed before the writer, now or earlier, the delay is at least a quantum. The node keeps working.
- `Engine.C120_alone`: a graph that is left alone. As `C120_delay`, if nothing happens between the quanta; everything is only assumed of the first graph.
- `Engine.C120_input`: the input. What a node finds at its input when it is processed: what is there at the beginning of the quantum (silence) and the sum of what the nodes before it in the order have sent to it in this quantum.

### C121 Levels by powers of two commute with mixing, to the bit

A gain of plus or minus a power of two (0.5, 2, -1, ...) in front of every source of an input, or behind the input, gives the same samples to the last bit, although mixing between channel layouts and summing round every operation to single precision. The same holds in front of or behind a biquad or IIR filter, in spite of the feedback of rounded values. In particular inverting all sources inverts the result exactly. For other factors this is false: three times louder sources do not give a three times louder sum to the bit.

*Approach* (`Verif/Mix`): Model of C119 (Mix/Rounding). Rounding to p bits commutes with powers of two and the sign (rnd_scale, rnd_neg), because the exponent shifts (expo_scale). Any rounding that commutes with a factor makes every operation of mix and add commute with it, by cases on the layouts (scaled_mixInner), then by induction on channels and sources (scaled_sum). For the gain behind the sum, the samples of a sum have the precision of the rounding (stored_sum). Filter/Scaling: the recursions of the filters with f64 rounding of every operation and f32 rounding of the output; induction on the frames.

*Status*: partial. C121_power: louder sources; C121_before_after: gain in front of the sources or behind the sum. Exponents are unbounded (no overflow, no subnormal numbers), channels share memory in the same way before and after the gain, and the fast track of the gain node (within 1e-6 of 0) is left out. C121_negated_factor: false for a factor of 3. C121_filters: biquad and IIR filters from rest (without the flushing of subnormal numbers); C121_negated_filter for a factor of 3.

- `Mix.C121_power`: all sources of an input are louder by a power of two (or softer, `k` negative), with the sign changed or not (`s` is 1 or -1). Then mixing and summing in `f32` (or any other precision `p`) gives exactly the same samples, louder by that factor: not a bit is different, whatever the layouts, modes and samples, and whatever the rounded value `r` of sqrt(0.5).
- `Mix.C121_before_after`: a gain of a power of two (or minus that), in front of every source or behind the sum: not a bit is different, for all samples that are numbers of `p` bits.
- `Mix.C121_negated_factor`: other factors do change bits: three times louder sources do not give three times louder samples.
- `Filter.C121_filters`: a biquad filter that computes in `f64` and gives `f32` (or any other precisions `p` and `q`), from rest, with any coefficients that may change per frame, as well as an IIR filter: input that is louder by a power of two, with the sign changed or not, gives output that is louder by exactly this factor, to the last bit, after any number of frames of feedback.
- `Filter.C121_negated_filter`: for other factors the bits differ, for a biquad filter that only passes on its input and the last output

## Disagreements between the code and the properties

Where the code violates a property, a theorem with a concrete witness says so:

- `Graph.C04_negated`: C04 is violated by the code: node 4 lies on the delay-free cycle 1 → 4 → 2 → 3 → 1 but it is scheduled (not muted).
- `Render.C05_negated`: C05 is violated: a playing source connected to the destination is not heard as soon as any other node without params is created after the connection and before the next quantum; it stays silent (four quanta shown). Without that registration it is heard.
- `Render.C05_negated_stuck_output`: Same defect, audible form: after the source has been disconnected and an unrelated node has been created, the destination keeps emitting its last buffer in every following quantum.
- `Render.C06_negated`: C06 fails for histories in which some processor panics: the id of the panicked node is recycled for a new node, the drop of the old handle marks the new node as dropped, and the next quantum destroys it although its handle is alive, its processor has not panicked, and it is connected to the destination.
- `Render.C07_negated`: C07 fails when a processor has panicked: its node is removed although its handle is alive, so that another node can still be connected to it. The connection leads nowhere, and the next quantum panics.
- `Render.C08_negated`: C08 fails when a processor panics: the node is removed and its id is recycled although its handle is alive; two live handles then have the same id.
- `Render.C09_negated`: C09 fails when a processor has panicked: its handle is alive, the next message sent with it makes the render thread panic (index of a removed node), i.e. the whole context dies.
- `Render.C09_negated_misdelivery`: C09 fails when a processor has panicked, second form: after the id has been recycled, a message sent with the old handle reaches the new, unrelated node.
- `Render.C10_negated`: C10 is violated: connecting twice doubles the signal.
- `Render.C11_negated`: C11 is violated: source 11 feeds gain 12 which feeds the destination. When the handle of the gain is dropped before the source is disconnected, the call has no effect: the source stays audible.
- `Render.C11_negated_race`: C11 is violated also for live handles when control threads interleave (the two parts of `mark_node_dropped` are separate): thread 1 drops node 11 and is interrupted between the two parts; the render thread frees the node; thread 2 creates a new node, which gets the id 11, and connects it; thread 1 continues and erases the administration of the new node. The new node can then not be disconnected any more.
- `Mix.C12_negated`: exception. From 4 to 5 channels with speakers interpretation the implementation leaves the third channel silent and moves the surround channels behind it; 5 channels is not one of the speaker layouts of the specification, so that the rule is discrete mixing.
- `Mix.C13_negated_fast_path`: C13 is false (1). One connection whose four channels share the same memory (for instance a `ChannelMergerNode` with the same mono source at all inputs) into an input with speakers interpretation and 4 channels: the two surround channels are lost. The fast path of `add` reduces buffers with identical channels to mono and mixes back to 4 channels.
- `Mix.C13_negated_order`: C13 is false (2). The order of the connections matters in speakers interpretation with mode `max`: mono first brought to stereo and then to 5.1 ends up left and right, otherwise in the centre.
- `Thread.C16_negated_suspend`: C16 fails: a suspend request processed while a device buffer of 256 frames is being filled does not stop the rest of that buffer; time advances and sound is emitted while the state is `suspended` (thread.rs l.483-531 polls the messages after each chunk but does not test `suspended`).
- `Thread.C16_negated_recycle`: C16 fails: `set_sink_id` (CloseAndRecycle) processed while a device buffer of 256 frames is being filled makes the thread panic (`graph.as_mut().unwrap()`, l.500).
- `Thread.C18_negated`: C18 fails: a suspension at a time after the start of the last quantum is accepted although it rounds up to the end of rendering, and its callback never runs.
- `Thread.C18_negated_rounding`: C18 and rounding errors: a user asks for the start of quantum 13 at 44.1 kHz, with the time computed in `f64` as `13 * 128 / 44100`; the suspension happens at quantum 14, because that time is rounded to just above the start of quantum 13.
- `Thread.C18_negated_dropped`: the asynchronous variant panics if the future returned by `suspend` was dropped (after being polled once): `sender.send(()).unwrap()`, thread.rs l.331
- `Control.C19_negated_lost`: C19 fails: messages are lost when `suspend` is called again before the render thread has processed the first call (`AudioContext::suspend` is asynchronous and only checks `state()`, online.rs l.523-542): `suspended_messages` is overwritten. One thread.
- `Control.C19_negated_order`: C19 fails: a thread's messages are reordered when another thread resumes the context: message 1 is still waiting to be flushed by thread 1 when message 3 of the same thread goes directly to the channel.
- `Thread.C16_negated_suspend`: C16 fails: a suspend request processed while a device buffer of 256 frames is being filled does not stop the rest of that buffer; time advances and sound is emitted while the state is `suspended` (thread.rs l.483-531 polls the messages after each chunk but does not test `suspended`).
- `Events.C21_negated`: C21 fails: a persistent handler that clears its own registration is put back, and runs again.
- `Events.C21_negated_replace`: C21 fails: a handler set while a persistent handler for the same event runs is lost.
- `Events.C22_negated`: C22 fails: the handler of node 1 (dropped without the handler being cleared or having run) is invoked for an event of node 2, which got the same internal id.
- `Param.C24_negated_ramp`: C24 is false for a target that has not started and is followed by a ramp: the a-rate buffer collapses to a single value, but the computation for all the frames yields different values.
- `Param.C26_negated_rounding`: C26 fails off the sample grid: an event at 1.4 frames is in effect at frame 1 already.
- `Param.C26_negated_late`: C26 fails for an event scheduled later than its time: it overrides a later event that was processed in time.
- `Param.C27_negated_end`: C27 fails in the half frame before the end of the ramp: for a ramp from (0, 0) to (3.4, 34) the value at frame 3 is the end value, not 30.
- `Param.C27_negated_start`: C27 fails in the half frame before the start of the ramp: from (0.4, 4) to (3.4, 34) the value at frame 0 is 0, which is not between the values of the two events (and not the value before them).
- `Param.C28_negated_ramp`: C28 is false: a ramp or a target that is scheduled before the first pending event.
- `Param.C28_negated_target`: C28 is false: a target that is scheduled before the first pending event.
- `Param.C28_negated_cancel`: C28 is false: cancelling such a ramp.
- `Param.C28_negated_overlap`: C28 is false: an event during a value curve, a value curve around an event.
- `Param.C28_negated_hold`: C28 is false: two cancel-and-holds in reverse order.
- `Param.C28_negated_past`: C28 is false: a value curve that starts (slightly) in the past, after a set target event has reached its target: the event that was put in its place is in the way. (`qArith` has 0 for `exp`, as `f64` has for `exp (-4000)`, the argument here.)
- `Param.C29_negated_target`: C29 is false for `set_target_at_time` alone: if the start time is at least two quanta in the future, the value is wrong in the whole second quantum already, whatever the arguments (`ex` has the property of `exp` that matters here).
- `Param.C29_negated_curve`: C29 is false for `set_value_curve_at_time` after another event: the curve starts at frame 10, but in the second quantum (frames 4 to 7) the value is 5 already.
- `Param.C29_negated_ramp`: C29 is false for a target that is followed by a ramp: the target starts at frame 10, but the value changes from frame 0 on (here `exp` is 0, so that the target is jumped to; with the exponential function it is `exp 10` in place of 0).
- `Param.C29_negated_nan`: C29 is false for a target that is equal to the current value, and that starts two quanta and `lim` time constants ahead or more: in the whole second quantum the node sees the default value of the parameter instead of the current value, although nothing should change at all.
- `Param.C30_negated_ramp`: C30 fails for the values before the cancel time during a ramp: ramp from (0, 0) to (10, 10), `cancelScheduledValues(8)` at time 4. Frames 4 to 7 jump to 0 (they are 4 to 7 without the call).
- `Param.C31_negated_later`: C31 fails for an event between the hold and the original end of the ramp: ramp from (0, 0) to (10, 10), hold at 4, set value 7 at 6. Frames 4 to 5 should be 4 and frames 6 to 7 should be 7.
- `Param.C31_negated_twice`: C31 fails for a second, later hold: it replaces the first one. Hold at 2, then at 6: frames 4 to 7 should be 2.
- `Param.C31_negated_target`: C31 fails for a target event followed by a set value event: the hold removes the set value event after `tc` and leaves the target event as it is, so the parameter goes on approaching the target for ever. Target 8 from time 1 on, set value at 4, hold at 3: the target stays in the timeline without a cancel time. (With any strictly monotone function for `exp` the values after 3 are not constant; here `1 / (1 - x)`.)
- `Param.C31_negated_past`: C31 is false for a hold in the past: the approach from 0 to 1 is at 1/2 at time 3; when `cancel_and_hold_at_time(1)` is called after that, the value jumps back to where it was at time 1, to 0.
- `Source.C32_negated_rounding`: In double precision the claim fails by a frame: the time of a frame is accumulated (`current_time += dt`), while the time of frame `n` is `n / sampleRate`. A source started at frame 5 (at 48 kHz, in the first quantum) is still silent at that frame.
- `Source.C32_negated_restart`: The samples follow the last call of `stop` even after the source has ended: a source that has ended (the event was sent) plays again after another call of `stop` with a later time, and no second event follows. In the Web Audio specification such a call has no effect.
- `Source.C33_negated_duration`: C33 is false when a duration is given: the duration is ten frames, but the looping source on the fast track compares the duration with the position in the buffer, which starts again with every loop, and plays whole quanta: twelve frames are heard.
- `Source.C34_negated_range`: The last but one sample of the example leaves the range of the buffer.
- `Source.C34_negated_backward`: C34 is false: playing backwards in a loop with the default loop points reads `buffer[length]`.
- `Source.C34_negated_rate`: C34 is false: the buffer has half the rate of the context and loops over its last frame. The loop start is converted to a frame number with the rate of the context.
- `Source.C34_negated_last`: C34 is false: the loop starts within the last frame.
- `Source.C34_negated_empty`: C34 is false: an empty buffer in a loop panics on the fast track.
- `Source.C34_negated_hang`: C34 is false: an empty buffer in a loop played backwards never returns on the slow track.
- `Source.C34_negated_rounding`: C34 is false in `f64`: a buffer of one second, a playback rate of 2^70 at 48 kHz. After the first frame the position is 2^70/48000, and taking one second off does not change it: the loop never ends.
- `Delay.C35_negated_echo`: C35 is false at the end: the delay is one quantum, the ring has room for two. The writer is freed after three quanta with the samples 1 to 6. The delayed samples 5 and 6 are heard, and then the samples 1 to 4 a second time.
- `Delay.C35_negated_repeat`: C35 is false at the end: with a delay of zero the last quantum is heard a second time.
- `Delay.C35_negated_race`: C35 is false when a quantum is rendered after the reader is registered and before the writer is: the reader is then a quantum ahead. A delay of two quanta becomes a delay of one: 1, 2 is written in the second quantum (frames 2 and 3) and heard in the third.
- `Delay.C35_negated_max`: C35 is false in floating point: a maximum of 8 ms at 48 kHz is three quanta, the ring has four. The value of the parameter is an `f32`: 8 ms is rounded up, to more than 384 frames, and the address of the frame before the playhead is the last frame of the quantum that is being written: the future.
- `Analyser.C36_negated_tear`: C36 is false when the rendering thread writes more than one quantum while the data are copied. A ring for windows of four samples and quanta of two: the index is loaded after the samples 1 to 4, the first sample is loaded after two more quanta: it is the sample 7 instead of 1.
- `Script.C37_negated_late`: C37 is false in general: the answer to the first chunk is late by one block and shares block 2 with the answer to the second: it is never played, block 3 plays the second.
- `Script.C37_negated_panic`: The field `output_buffer` of the event is public. An answer whose length is not a multiple of the quantum, and one with too many channels: `onmessage` panics on the rendering thread, outside of `catch_unwind`.
- `Script.C37_negated_odd_size`: `bufferSize` 300 is accepted (C51): a chunk has two quanta of 128, the last 44 frames are always zero. Here with quanta of two frames and a size of five.
- `Node.C39_negated_empty`: C39 is false for the empty curve, which `set_curve` accepts: the renderer computes the index `0 - 1` when it receives the curve, in `onmessage`, on the rendering thread.
- `Node.C39_negated_long`: C39 is false in single precision for very long curves: with 16777219 points the index of the last point, computed as `(n - 1.) as usize` with `n` rounded to `f32`, is outside of the curve.
- `Node.C40_negated_exact`: The output is not the exact product when a shortcut applies.
- `Filter.C42_negated_channels`: C42 is false when the number of channels changes: with a mono quantum between two stereo quanta the state of the second channel is lost. The second channel of the input is 4, 0, then nothing, then 0, 0: the output of the equation would be 4, 2, 1, 1/2, …
- `Filter.C43_negated_lowpass_zero`: C43 is false for the lowpass at frequency 0: it has a double pole on the unit circle, for every quality factor and sample rate.
- `Filter.C43_negated_bounded`: C43 is false for the lowpass at frequency 0: when the filter passes one sample with value 1, at the Nyquist frequency, and is then set to frequency 0, its output for silent input grows without bound: frame `n` is `n + 1`.
- `Source.C44_negated_custom`: C44 is false for a custom type without a wave, which the constructor accepts: the first block panics.
- `Source.C44_negated_empty`: C44 is false for the default wave, which is empty.
- `Source.C44_negated_rounding`: C44 is false with the rounding of `f64`: a small negative frequency makes the phase 1, and the next lookup is out of bounds.
- `Source.C44_negated_start`: The phase of an oscillator whose start time is within less than a frame before the begin of a block is wrong: the oscillator starts with phase 0 at the begin of the block, while at a place within a block it is sample accurate.
- `Source.C44_negated_restart`: An oscillator that has ended plays again after another call of `stop` with a later time, with the phase at which it stopped. In the Web Audio specification such a call has no effect.
- `Compressor.C45_negated_tail`: C45 fails at the end: a sound of one quantum, into a compressor with the delay of two quanta, whose handle is dropped; the gain is one. All that the compressor emits in its life is silence.
- `Compressor.C45_negated_rest`: C45 fails at the end: a rest within the last quanta of a sound cuts off what follows.
- `Convolver.C46_negated_right_tail`: C46 fails with a mono response: a stereo sound whose right channel has the only impulse, in the last frame, followed by silence. The right channel of the tail is lost: mono silence only runs the left engine.
- `Convolver.C46_negated_stale_tail`: C46 fails with a mono response: what was lost of the tail comes out when the next stereo sound begins, however long after.
- `Stats.C47_negated_phantom_zero`: C47 in its intended meaning fails at the start: the constructor resets before a latency is known, so that zero counts as a recorded latency. With latencies 10 and 20 the minimum is 0 and the average is 10.
- `Stats.C47_negated_ratio`: C47 is false for snapshots taken while a callback is recorded: the number of callbacks is read first, the number of late ones later. The difference of two snapshots shows one callback and three late ones: a ratio of 3.
- `Stats.C47_negated_snapshot`: C47 is false for a snapshot during `record_latency_ns`: all latencies are 100, the average is 33 or 200.
- `Stats.C47_negated_reset`: C47 is false after a reset that overlaps `record_latency_ns`: the damage stays. Both calls are complete when the snapshot is taken; the average, 200, is above the maximum.
- `Stats.C47_negated_reset_order`: A reset that overlaps `record_latency_ns` and a snapshot: the minimum, 150, is above the maximum.
- `Buffer.C49_negated_single_frame`: C49 negated: a buffer that is resampled to a single frame becomes NaN, whatever it contains.
- `Buffer.C49_negated_single_frame_witness`: C49 negated: one frame at 48 kHz, resampled to 44.1 kHz, is NaN.
- `Buffer.C49_negated_length`: C49 negated: with `f64` rounding, 147 frames at 44.1 kHz are 161 frames at 48 kHz instead of `147 * 48000 / 44100 = 160`.
- `Buffer.C50_negated_error`: C50 negated: an error in the stream discards the samples that were already collected for the quantum.
- `Buffer.C50_negated_channels`: C50 negated: a change of the number of channels within a quantum panics.
- `Buffer.C50_negated_resampled`: C50 negated: a stream at another rate is resampled chunk by chunk. Delivered in chunks of one frame it is NaN throughout, delivered in one chunk it is not.
- `Buffer.Track.C50_negated_consumers`: C50 negated: a consumer that needs two chunks at once makes another consumer of the same track miss the first of them; and the consumer that reaches the end first takes the last chunk from the other.
- `Buffer.Track.C50_negated_race`: C50 negated: two consumers that are polled at the same time both lose the first chunk and both get the second one twice, although they are polled equally often.
- `Valid.C51_negated_script_size`: C51 is false for the script processor: 300 is not a documented size, and is accepted; so is an undocumented size for each power of two.
- `Valid.C51_negated_script_outputs`: No output channels are documented as valid, and accepted; the panic comes on the rendering thread, at the end of the first chunk, instead of the calling thread.
- `Valid.C51_negated_periodic_wave`: C51 is false for periodic waves: the documentation promises a panic for more than 8192 components, any number is accepted.
- `Valid.C51_negated_splitter`: C51 is false for the splitter: an explicit channel count of 6, with two outputs, is accepted and replaced.
- `Control.State.C52_negated_startup`: C52 fails: closing a context that has not been started yet (state `suspended`, the startup message still in the queue) and then letting the render thread run: the context is `running` again.
- `Control.State.C52_negated_async`: C52 fails: `close` called while an asynchronous `suspend` is under way. The close request is put into the buffer for suspended contexts; the render thread can process all messages and the close request is never among them, so the caller waits forever. After `resume` the context is closed and then `running` again.
- `Render.C53_negated`: C53 is violated for nodes left out of the order: a gain (id 12, processor 0) is part of a delay-free cycle with node 13 and is fed by source 11 (signal 5). While the cycle exists its input accumulates one signal per quantum; when the cycle is removed after three quanta the destination receives 20 instead of 5 in one quantum.
- `Render.C54_negated`: C54 (constructing a node with invalid options does not harm the engine) is violated: 53 nodes exist or have existed, the constructor of the 54th panics on the control thread (its id is 64), and the render thread dies on the message announcing the dropped handle. No processor misbehaves.
- `Render.C55_negated`: C55 (a muted destination is silent) is violated: the destination plays 5; then it is made part of a delay-free cycle, is muted, and keeps emitting the last buffer in every quantum.
- `Control.Sink.C56_negated`: C56 fails: if `set_sink_id_sync` finds messages that the render thread has not processed yet, the thread blocks forever, and from then on no thread can send a control message: in all continuations.
- `Param.C57_negated`: C57 is false in `f64`: a curve of 4 values from time 0 with duration 0.10158730158730159 (the double next to the time of frame 4480 = 35 * 128 at 44.1 kHz) is read at index 4 in the first frame of quantum 35. The render thread panics.
- `Param.C58_negated_zero`: C58 fails for values of different sign or a start at zero: the code does not ramp but holds the value and jumps at the end time. (The specification of Web Audio asks for this.)
- `Compressor.C60_negated_defaults`: C60 fails for the defaults: 4.95 dB instead of 5.28 dB.
- `Compressor.C60_negated_attenuates`: C60 fails: with the threshold at 0 dB and a knee of 40 dB nothing up to full scale is compressed, yet the makeup gain makes everything 11.4 dB softer.
- `Compressor.C60_negated_reduction`: C60 fails: a compressor with the default params that gets silence reports a reduction of +4.95 dB, not 0.
- `Source.C62_negated_start`: C62 is false for a start time strictly between the last frame of a quantum and the next quantum: the first frame after the start time is the first one of the second quantum, half a frame late. The position should be half a frame, giving 3/2 (as in the example above), but the start time is moved to the quantum and 1 is heard.
- `Panner.C63_negated_nan`: C63 fails at the edges that the setters accept: the gain is NaN for a linear model with equal distances, for an inverse model without reference and rolloff, and for an exponential model without reference at the listener.
- `Panner.C63_negated_ref`: without reference distance a source at the place of the listener has full level in the inverse model, where the specification has 0.
- `Panner.C64_negated`: C64 fails: a source that points exactly at the listener is silent, and one that points exactly away has its full level. The specification has it the other way round.
- `Panner.C64_negated_no_orientation`: C64 fails without an orientation: a source that points nowhere has no cone, but with two angles 0 it is attenuated.
- `Panner.C66_negated`: C66 fails: with the default listener and default attributes, a source that is automated from the left to the right within a quantum is still rendered at the left in the last frame, where it is at the right.
- `Panner.C67_negated`: C67 fails: a panner that was idle for two quanta and then plays one quantum of sound puts out silence in the next quantum, where the convolution still has a sound.
- `Analyser.C68_resize_negated`: negated: after a change of the size in the quantum of the last call the data are neither those of the last call nor the spectrum of the window: every bin is -∞, whatever the signal, and stays so until time moves on.
- `Analyser.C69_byte_time_excess_negated`: negated: the excess elements of an array longer than the window are not left alone: they become 128, while the float version leaves them.
- `Worklet.C70_silent_negated`: negated: the outputs are not silent when the processor is called. A processor that plays one block of ones and then writes nothing is heard for ever.
- `Media.Destination.C71_channels_negated`: negated: without a connection the buffers are mono, whatever the configuration of the node.
- `Media.Destination.C71_end_negated`: negated: the stream never ends. When the node is gone, the reader gets one error after the other.
- `Media.Recorder.C72_empty_negated`: negated: for a track that ends before its first chunk there is no stop event, and the recorder stays active: it cannot be started again.
- `Media.Recorder.C72_after_stop_negated`: negated: data can be delivered after the stop event.
- `Media.Recorder.C72_restart_negated`: negated: a recorder that is stopped and started again while its thread waits for the next chunk begins the second recording with the last chunk of the first one, and then records every chunk twice.
- `Media.Recorder.C72_inactive_stop_negated`: negated: `stop` of a recorder that was never started delivers an event without data and a stop event.
- `Media.Recorder.Wav.C72_channels_negated`: negated: if the number of channels changes, as that of a stream destination does when the sound begins (C71), the header of the first chunk is used for all: silence in mono, then a stereo signal, is read as one channel that alternates between left and right and lasts too long.
- `Media.Recorder.Lock.C72_callback_stop_negated`: negated: a data callback that calls `stop` blocks the thread it runs on for ever; the data lock is never released and every later `stop` blocks as well.
- `Media.Element.C73_batch_negated`: negated: the comment of `new` says that up to 32 messages are handled per render quantum. With `k` messages before it `play` takes effect after `k` chunks of silence.
- `Media.Element.C73_time_rate_negated`: negated: at a rate other than 1 the time is not the position: at rate 2 it lags behind by half.
- `Media.Element.C73_time_end_negated`: negated: without loop the time runs past the end of a file whose length is not a multiple of 128.
- `Media.Element.C73_rate_zero_negated`: negated: a rate of zero, which should halt the playback, panics on the render thread; every file that plays meets this.
- `Media.Element.C73_reverse_negated`: negated: a negative rate plays forwards.
- `Media.Element.C73_seek_negated`: negated: a seek to a negative time is reported as such, although the file is read from its beginning.
- `Capacity.C74_release_negated`: negated: when the context is dropped while a collection is on, the collector does not end, and no longer waits for the interval: it goes round any number of times without time passing.
- `Capacity.C74_race_negated`: negated: if two threads call `start` at the same time, two collectors work, every callback is reported twice, and one of the collectors survives `stop`.
- `Capacity.C74_handler_negated`: negated: `stop` called by an event handler, while the collector waits for room in the event queue, never returns, and with it the event thread stops.
- `Decode.C75_negated_truncated`: C75 negated: a file that ends prematurely is decoded without an error to what precedes the end.
- `Decode.C75_negated_corrupt`: C75 negated: a packet that cannot be decoded is left out without an error, so that everything after it is heard too early: sample 2 of the file is 30, sample 2 of the result is 50.
- `Decode.C75_negated_channels`: C75 negated: a file with more channels than an `AudioBuffer` may have (32) is decoded to a buffer that no constructor accepts.
- `Io.NoneBackend.C76_resume_negated`: C76 negated: after a resume at time `t` the first quantum is rendered at once, and the second one is due only two intervals later.
- `Io.NoneBackend.C76_drop_negated`: C76 negated: a context that is dropped before its render thread has handled the first message is not in state `Running`, so its backend is dropped, and from then on the thread renders without waiting: any number of quanta in no time.
- `Io.NoneBackend.C76_spin_negated`: C76 negated: nor does the thread end; once the backend of a suspended context is dropped it never waits again (every state with an empty queue can step at once) and never returns.
- `Io.Microphone.C77_negated_channels`: C77 negated: a device with more than 32 channels makes the callback of the input stream panic, with the first frame.
- `Io.Microphone.C77_negated_gap`: C77 negated: a reader that asks once too early hears silence although no sound was lost, and from then on everything comes later; if the device then catches up, captured buffers are lost.
- `Io.Devices.C78_negated_collision`: C78 negated: with `cpal`, if the hash of an input device collides with that of an output device, the id that is listed for the output opens the standard device instead.
- `Io.Devices.C78_negated_overflow`: C78 negated: more than 256 devices of one name cannot be listed; the enumeration panics.
- `Io.Devices.C78_negated_hidden`: C78 negated: a single device without a name hides all devices (with a channel count), and then every sink id is refused.
- `Io.Devices.C78_negated_fallback`: C78 negated: `get_user_media_sync` records from the standard device if the requested one does not exist.
- `Io.Devices.C78_negated_unplugged`: C78 negated: of two devices that are alike, the id of the first means the second when the first is unplugged.
- `Io.Config.C79_buffer_negated`: C79 negated: a hint of more than 2^31 and at most 2^32 frames (13 to 27 hours at 44.1 kHz) asks for a buffer of size zero.
- `Io.Config.C79_hint_negated`: C79 negated: `try_new` panics for a latency hint that is not positive instead of returning an error.
- `Io.Config.C79_cubeb_negated`: C79 negated for `cubeb`: with a requested rate of 44100.5 Hz the graph is rendered for 44100.5 Hz while the device plays 44100 frames per second.
- `Io.Config.C79_sink_negated`: C79 negated: if the new device refuses the sample rate, the graph is rendered at the rate of the device while the context, all its nodes and `currentTime` keep the old rate.
- `Events.Queue.C80_negated_lost`: a sound ends while 256 messages of a worklet wait: the callback for its end never runs, though all others run
- `Events.Queue.C80_negated_never_ends`: a running context is closed while 256 messages wait: the change to closed is lost, and the event thread goes on waiting for ever (unless a callback panics)
- `Events.Queue.C80_negated_render_killed`: diagnostics are requested while 256 messages wait: the render thread is killed
- `Events.Queue.C80_negated_deadlock`: a callback changes the sink while 256 messages wait: it waits for itself, and nothing is handled any more, whatever happens
- `Events.Queue.C80_negated_waits_forever`: a callback panics: the event thread is gone; when the channel is full every thread that changes the sink, closes a suspended context or collects render capacity waits for ever
- `Events.Suspend.C82_negated_resume_early`: `resume` before the rendering has started does not panic, as documented, but stays in force: the rendering does not stop at the suspension
- `Events.Suspend.C82_negated_closed_suspended`: ... and the promise of the suspension can be resolved after the end: a closed context becomes suspended
- `Events.Suspend.C82_negated_closed_running`: `resume` after the end: the call panics, and the closed context is running again
- `Filter.C83_negated_lowpass`: C83 is false for the lowpass with a frequency of 0: at 0 Hz NaN is reported.
- `Events.Late.C85_negated_stolen`: C85 is false: the `ended` event of a source whose handle was dropped (a sound that is fired and forgotten) is in the queue when its id is given to a new source. The handler of the new source runs although it has not ended, and as it runs only once, its own end is not noticed.
- `Events.Late.C85_negated_before_drop`: C85 is false: the id is given away before the last event of the removed node is raised.
- `Events.Late.C85_negated_crash`: C85 is false: the handle of a script processor is dropped while its callback runs; the answer finds the node gone and the render thread panics.
- `Events.Late.C85_negated_wrong_node`: C85 is false: the same with a new node under the id, which gets the buffer of the answer. An `AudioBufferSourceNode` takes it as the buffer to play (`/repo/src/node/audio_buffer_source.rs` l.847-870).
- `Garbage.C86_negated_panner`: C86 is false: the HRTF data of a panner are destroyed by the render thread when the panning model changes.
- `Garbage.C86_negated_free`: C86 is false: a buffer is destroyed by the render thread when the source that has it is removed, if the user keeps no clone of it.
- `Garbage.C86_negated_curve`: C86 is false: value curves are destroyed by the render thread when they have been played.
- `Param.C87_negated_past`: C87 is false if the start time is in the past: the first frame rendered after the call is not where the parameter was (`v0`), it is where an approach that started back then would be now. Not even 0, which stands for "now" in `set_value_at_time`, is treated differently.
- `Param.C88_negated_past`: C88 is false if the start time is in the past, even if it is 0, which stands for "now" in `set_value_at_time`: the part of the curve before the current time is cut off; in particular the curve does not begin with its first value.
- `Param.C89_negated_race`: C89 is false between the call of `set_value` and the arrival of its message: the quantum rendered in between takes the value back, for all values.
- `Param.C89_negated_now`: C89 is false for `set_value_at_time` with the current time: in the first quantum `value` is the old value.
- `Param.C89_negated_boundary`: C89 is false if a ramp ends and a value is set at the beginning of a quantum: `value` is the end of the ramp, the first frame is the value that is set. The same for a curve that begins there.
- `Attr.C91_negated_empty`: C91 is false for an empty curve: it is accepted, and the renderer panics.
- `Node.C92_negated_pause`: C92 is false when the input pauses, whatever the resamplers are: the rest of the sound in their memory is cut off, and comes out when the next sound begins, as if there had been no pause.
- `Node.C92_negated_pause_witness`: With them, the last sample of a sound is cut off and comes out after the pause: without interruption it would be the first sample of the pause.
- `Nan.C93_negated_pause_iir`: C93 is false when the input of an IIR filter pauses right after a sample that is not finite: the sample stays in the filter however long the pause is, and falsifies the next sound. Two taps; the last output would be 1.
- `Nan.C93_negated_pause_biquad`: C93 is false for the biquad filter in the same way: coefficients `b = (1, 1, 1)`; the output after the pause would be 1, 2.
- `Nan.C93_negated_overflow`: C93 is false for the samples that are output: they are checked before they are narrowed to `f32`, so that finite input can give infinite output. A filter with the coefficient `10^39`.
- `Nan.C94_negated`: C94 is false: one sample that is infinite, or undefined in all channels, and the compressor never recovers: all sound after it is output as NaN, whatever the params are.
- `Nan.C94_negated_reduction`: C94 is false for the metering as well: `reduction` is NaN from then on.
- `Param.C96_negated_sustain`: C96 is false while a sustain level waits for a release that is scheduled ahead: the note decays to 1/2 in the first quantum and should stay there until the release at frame 20, but from frame 8 on the value is 13/2.
- `Param.C97_negated_reached`: C97 is false for an approach that counts as reached: from 0 to 1, reached in the first quantum (until frame 4); a ramp to 2 until time 20 that is scheduled at time 12, when the value has been 1 for a long time, does not start at 1, but at 3/2, where a ramp that starts at time 4 would be.
- `Render.C98_negated_cycle`: C98 is false with cycles. Two delay nodes 12 and 13 feed each other and the destination, a source 11 feeds both. Which of the two is cut, and silenced, depends on which connection of the source was made first.
- `Render.C99_negated`: C99 is false when the unrelated node 13 is created after connections of the same batch: it silences the others (the order of the nodes is incomplete, C05).
- `Engine.C102_negated_max`: negated: with the default mode `max` of filters a source changes how another one is filtered. A mono source is heard in both channels of the destination; when a stereo source joins it, the filter gets a second channel, whose memory does not know the past of the mono source (iir_filter.rs l.363-370). In the second quantum the right channel is `4, 8` instead of `3 + 3, 4 + 6`.
- `Engine.C102_negated_reverb`: negated for a response of one channel and a convolver of two. The inputs are those of mode `explicit`: two channels while something is connected, otherwise a silence of one channel, in which the engine of the right channel stands still. Something plays on the right, is disconnected, and silence is connected; another source plays. Alone, the first is heard once and the second once; together, the rest of the first is heard again on the right with the second.
- `Engine.C102_negated_delay_max`: C102 does not hold for a delay node in mode `max`, the default: a sound on the left leaves the delay on both sides if the source is silent while the sound is in the delay, since silence has one channel and the ring is mixed down to it (delay.rs l.470-488). With a second source that plays in stereo meanwhile it leaves the delay on the left.
- `Engine.C102_negated_panner_clamped`: C102 does not hold for a panner in mode `clamped-max`, the default. A panner at the place of the listener gets a sound of one channel and is heard with `√2 / 2` of its level on either side. If a source of two channels joins in that plays only zeros (and is not heard alone), the sound is mixed up to two channels and heard with its full level: panner.rs pans one channel and two channels by different rules (l.845-897).
- `Engine.C102_negated_hrtf`: C102 does not hold with HRTF, even if the convolution is linear. The panner counts the quanta of silence over its whole life (panner.rs l.696-710); once it has counted as many frames as the impulse responses have, the tail of a sound is cut off when the input becomes silent. A source that plays zeros (and is not heard alone) makes the tail of the other one audible again.
- `Render.C104_negated`: C104 is violated for cycles without delay: two gains connected in a cycle, both handles dropped, all messages handled. However long the context runs, the two nodes are never released and their ids never handed back.
- `Tail.C105_negated_integrator`: C105 fails for filters with feedback: the integrator `y[n] = x[n] + y[n - 1]`, which the validation accepts, never ends once it has heard something. (The numbers are exact in `f64`, too.)
- `Param.C108_negated_now`: C108 is false for the time 0: a call with time 0 after the first quantum means "now" (param.rs l.1056-1062), not the time 0. After one quantum of 2 frames at 1 Hz, `set_value_at_time(0, 0)` and a ramp to 6 at time 4 give 0 and 3 in the next quantum; the same two seconds later gives 3 and 9/2.
- `Whole.C110_negated_buffer`: C110 does not hold for buffer sources with the tolerant comparison of the code: a sound that starts between two frames begins at frame 11 (with interpolated samples). After a wait of an hour it begins two frames too early (and without interpolation).
- `Param.C115_negated_boundary`: The proviso of `C115_exact_partial` is needed: the value 5 is set at time 2, with which the third quantum begins, but it is not the value of the third quantum but that of the fourth. If another value is set during the second quantum, then the value 5 is that of the third quantum.
- `Source.C44_negated_rounding`: C44 is false with the rounding of `f64`: a small negative frequency makes the phase 1, and the next lookup is out of bounds.
- `Source.C117_negated_jump`: without the lower bound on the frequency this is wrong: at a negative frequency the sawtooth is not corrected, and a phase that is smaller by any amount can turn the sample around, from near -1 to 1.
- `Source.C118_negated_kinds`: C118 is false between a buffer source and a constant source: the buffer source computes the time of frame `i` as `block_time + i * dt` (`/repo/src/node/audio_buffer_source.rs` l.647, l.666-671), the constant source accumulates. At 44.1 kHz, the buffer source stops at frame 13 (the time of which is `f64 (13 / 44100)`), and a constant source that starts at this time starts a frame later: frame 13 is lost.
- `Source.C118_negated_buffers`: C118 is false between two buffer sources, because a start time that is almost reached is taken as reached (`/repo/src/node/audio_buffer_source.rs` l.649-653), a stop time is not. At 48 kHz the time of frame 5 is just before `f64 (5 / 48000)`: a source that stops then (`a`) still plays at frame 5, and so does one that starts then (`b`, from its first frame). The frame is played twice.
- `Mix.C119_negated_order`: The sum depends on the order: `C119_order_partial` is not zero.
- `Mix.C121_negated_factor`: other factors do change bits: three times louder sources do not give three times louder samples.
- `Filter.C121_negated_filter`: for other factors the bits differ, for a biquad filter that only passes on its input and the last output

## Axioms

Output of `#print axioms`, grouped. Names without the prefix `Verif.`.

**none**: `Events.C21_negated`, `Events.C21_negated_replace`, `Events.C22_negated`, `Buffer.Track.C50_negated_consumers`, `Buffer.Track.C50_negated_race`, `Control.State.C52_negated_startup`, `Io.Microphone.C77_negated_gap`

**propext**: `Thread.C16_negated_suspend`, `Thread.C16_negated_recycle`, `Thread.C18_negated_dropped`, `Control.C19_negated_lost`, `Control.C19_negated_order`, `Thread.C16_negated_suspend`, `Analyser.C36_negated_tear`, `Script.C37_negated_late`, `Script.C37_negated_panic`, `Script.C37_negated_odd_size`, `Compressor.C45_negated_tail`, `Compressor.C45_negated_rest`, `Convolver.C46_negated_stale_tail`, `Stats.C47_negated_phantom_zero`, `Stats.C47_negated_snapshot`, `Stats.C47_negated_reset`, `Stats.C47_negated_reset_order`, `Stats.C47_exposed_paused`, `Valid.C51_negated_periodic_wave`, `Control.State.C52_negated_async`, `Render.C54_failed_construction_partial`, `Control.Sink.C56_quiet_partial`, `Control.Sink.C56_reachable`, `Media.Recorder.C72_progress`, `Media.Recorder.C72_empty_negated`, `Media.Recorder.C72_after_stop_negated`, `Media.Recorder.C72_restart_negated`, `Media.Recorder.C72_inactive_stop_negated`, `Media.Recorder.Wav.C72_channels_negated`, `Capacity.C74_release_negated`, `Events.Queue.C80_negated_lost`, `Events.Queue.C80_negated_render_killed`, `Events.Late.C85_negated_stolen`, `Events.Late.C85_negated_before_drop`, `Events.Late.C85_negated_crash`, `Events.Late.C85_negated_wrong_node`, `Garbage.C86_negated_panner`, `Garbage.C86_negated_free`, `Garbage.C86_negated_curve`

**Quot.sound, propext**: `Graph.C04_negated`, `Render.C05_negated`, `Render.C05_negated_stuck_output`, `Render.C05_batch_partial`, `Render.C06_negated`, `Render.C07_negated`, `Render.C08_negated`, `Render.C09_negated`, `Render.C09_negated_misdelivery`, `Render.C10_negated`, `Render.C11_negated`, `Render.C11_negated_race`, `Control.C19_order_partial`, `Control.C19_issued`, `Thread.C20_clock`, `Thread.C20_monotone`, `Events.C21_in_force_partial`, `Events.C21_once`, `Events.C22_own_events_partial`, `Param.C23_sum`, `Param.C30_timeline`, `Source.C32_once`, `Source.C32_ended_only`, `Source.C32_ended_sent`, `Source.C33_ended_once`, `Source.C33_silent_after_end`, `Node.C38_splitter`, `Node.C39_no_curve`, `Node.C40_gain_exact`, `Filter.C42_tail_end`, `Source.C44_ended_once`, `Convolver.C46_no_response`, `Stats.C47_latency`, `Stats.C47_peak`, `Stats.C47_exposed`, `Stats.C47_exposed_fresh`, `Buffer.C48_construct`, `Buffer.C50_render`, `Buffer.Track.C50_single_consumer`, `Buffer.Track.C50_lockstep`, `Buffer.Track.C50_in_order_partial`, `Buffer.Track.C50_close`, `Buffer.Track.C50_uninterrupted`, `Buffer.C50_error_skipped`, `Valid.C51_sample_rate`, `Valid.C51_time`, `Valid.C51_offline`, `Valid.C51_suspend`, `Valid.C51_ranges`, `Valid.C51_param`, `Valid.C51_convolver`, `Valid.C51_periodic_wave_partial`, `Valid.C51_panner`, `Render.C53_negated`, `Render.C54_negated`, `Render.C55_negated`, `Worklet.C70_silent_negated`, `Media.Destination.C71_lossless`, `Media.Destination.C71_channels_negated`, `Media.Destination.C71_end_negated`, `Media.Recorder.C72_prefix`, `Media.Recorder.C72_stop`, `Media.Recorder.Lock.C72_callback_stop_negated`, `Capacity.C74_race_negated`, `Capacity.C74_handler_negated`, `Decode.C75_error`, `Decode.C75_negated_truncated`, `Io.NoneBackend.C76_no_drift`, `Io.NoneBackend.C76_resume_negated`, `Io.NoneBackend.C76_drop_negated`, `Io.NoneBackend.C76_spin_negated`, `Io.Microphone.C77_order_partial`, `Io.Microphone.C77_dropped`, `Io.Microphone.C77_complete`, `Io.Devices.C78_unique`, `Io.Devices.C78_select`, `Io.Devices.C78_stable`, `Io.Devices.C78_negated_collision`, `Io.Devices.C78_negated_overflow`, `Io.Devices.C78_negated_hidden`, `Io.Devices.C78_negated_fallback`, `Io.Devices.C78_negated_unplugged`, `Events.Queue.C80_in_order`, `Events.Queue.C80_nothing_after_closed`, `Events.Queue.C80_payloads`, `Events.Queue.C80_no_loss_partial`, `Events.Queue.C80_all_handled_partial`, `Events.Queue.C80_negated_never_ends`, `Events.Queue.C80_negated_deadlock`, `Events.Queue.C80_negated_waits_forever`, `Events.Suspend.C82_negated_resume_early`, `Events.Suspend.C82_negated_closed_suspended`, `Events.Suspend.C82_negated_closed_running`, `Events.Late.C85_own_partial`, `Events.Late.C85_no_drop_partial`, `Garbage.C86_collector_ends`, `Create.C90_refused`, `Render.C98_negated_cycle`, `Render.C99_negated`, `Tail.C105_convolver`, `Mix.sumIntoR_id`

**Classical.choice, Quot.sound, propext**: `Graph.C01_upstream_first`, `Graph.C02_terminates_and_complete`, `Graph.C03_only_cycles_are_cut`, `Graph.C04_cycle_muted_partial`, `Render.C05_every_node_processed_partial`, `Render.C06_destroyed_only_when_useless`, `Render.C06_destroyed_general`, `Render.C06_live_handle_keeps_node_partial`, `Render.C07_no_dangling_connections_partial`, `Render.C08_ids_unique_partial`, `Render.C09_messages_find_their_node_partial`, `Render.C10_connections_partial`, `Render.C11_disconnect_effective_partial`, `Mix.C12_mix_partial`, `Mix.C12_negated`, `Mix.C13_sum_partial`, `Mix.C13_order_partial`, `Mix.C13_negated_fast_path`, `Mix.C13_negated_order`, `Mix.C13_layouts_partial`, `Cow.C14_value_semantics`, `Cow.C14_write_is_local`, `Cow.C14_silence`, `Cow.C14_pool_unshared`, `Thread.C15_stream`, `Thread.C15_callback_size`, `Thread.C16_suspend_partial`, `Thread.C16_safe_partial`, `Thread.C17_exact`, `Thread.C17_capacity`, `Thread.C18_suspend_partial`, `Thread.C18_negated`, `Thread.C18_negated_rounding`, `Thread.C16_suspend_partial`, `Param.C23_range`, `Param.C24_length`, `Param.C24_terminates`, `Param.C24_collapse_partial`, `Param.C24_negated_ramp`, `Param.C25_sorted`, `Param.C25_stable`, `Param.C26_C27_frames`, `Param.C26_sets_partial`, `Param.C26_negated_rounding`, `Param.C26_negated_late`, `Param.C26_C27_new`, `Param.C26_C27_frames`, `Param.C27_exact_partial`, `Param.C27_negated_end`, `Param.C27_negated_start`, `Param.C26_C27_new`, `Param.C28_safe_order_partial`, `Param.C28_negated_ramp`, `Param.C28_negated_target`, `Param.C28_negated_cancel`, `Param.C28_negated_overlap`, `Param.C28_negated_hold`, `Param.C28_negated_past`, `Param.C29_quantum_partial`, `Param.C29_curve_partial`, `Param.C29_negated_target`, `Param.C29_negated_curve`, `Param.C29_negated_ramp`, `Param.C29_negated_nan`, `Param.C30_values_partial`, `Param.C30_unaffected_partial`, `Param.C30_negated_ramp`, `Param.C31_hold_partial`, `Param.C31_then_partial`, `Param.C31_negated_later`, `Param.C31_negated_twice`, `Param.C31_negated_target`, `Param.C31_target_partial`, `Param.C31_negated_past`, `Source.C32_samples`, `Source.C32_tail`, `Source.C32_negated_rounding`, `Source.C32_negated_restart`, `Source.C33_natural_rate`, `Source.C33_negated_duration`, `Source.C34_samples`, `Source.C34_no_fault_partial`, `Source.C34_negated_range`, `Source.C34_negated_backward`, `Source.C34_negated_rate`, `Source.C34_negated_last`, `Source.C34_negated_empty`, `Source.C34_negated_hang`, `Source.C34_negated_rounding`, `Delay.C35_delay_partial`, `Delay.C35_ring_size`, `Delay.C35_shutdown_exact`, `Delay.C35_shutdown_partial`, `Delay.C35_negated_echo`, `Delay.C35_negated_repeat`, `Delay.C35_negated_race`, `Delay.C35_negated_max`, `Analyser.C36_window_partial`, `Analyser.C36_can_load`, `Script.C37_input_chunks`, `Script.C37_output_blocks`, `Script.C37_latency_partial`, `Script.C37_playback_time`, `Node.C38_merger_ok`, `Node.C38_merger`, `Node.C38_merger_independent`, `Node.C38_split_merge`, `Node.C39_apply_curve`, `Node.C39_bounds`, `Node.C39_node`, `Node.C39_negated_empty`, `Node.C39_negated_long`, `Node.C40_gain`, `Node.C40_negated_exact`, `Node.C41_equal_power`, `Node.C41_gains_nonneg`, `Node.C41_mono`, `Node.C41_stereo`, `Node.C41_no_panic`, `Filter.C42_difference_equation`, `Filter.C42_tail_kept`, `Filter.C42_negated_channels`, `Filter.C43_stable`, `Filter.C43_poles`, `Filter.C43_ends`, `Filter.C43_lowpass`, `Filter.C43_highpass`, `Filter.C43_bandpass`, `Filter.C43_notch`, `Filter.C43_allpass`, `Filter.C43_peaking`, `Filter.C43_lowshelf`, `Filter.C43_highshelf`, `Filter.C43_difference_equation`, `Filter.C43_coefficients`, `Filter.C43_tail_end`, `Filter.C43_bounded`, `Filter.C43_negated_lowpass_zero`, `Filter.C43_negated_bounded`, `Filter.C43_detune`, `Source.C44_phase`, `Source.C44_no_panic`, `Source.C44_waveform`, `Source.C44_sawtooth`, `Source.C44_square`, `Source.C44_triangle`, `Source.C44_shapes`, `Source.C44_phase_sum`, `Source.C44_constant_partial`, `Source.C44_normalize`, `Source.C44_wave_table`, `Source.C44_default_wave`, `Source.C44_no_offset`, `Source.C44_sine_error`, `Source.C44_negated_custom`, `Source.C44_negated_empty`, `Source.C44_negated_rounding`, `Source.C44_negated_start`, `Source.C44_wave_coefs`, `Source.C44_series`, `Source.C44_wave_error`, `Source.C44_negated_restart`, `Source.C44_tune`, `Compressor.C45_delay`, `Compressor.C45_tail_exact`, `Compressor.C45_tail_partial`, `Compressor.C45_latency`, `Convolver.C46_stereo_response`, `Convolver.C46_true_stereo_response`, `Convolver.C46_mono_response_partial`, `Convolver.C46_nothing_left`, `Convolver.C46_ends`, `Convolver.C46_no_panic`, `Convolver.C46_negated_right_tail`, `Stats.C47_exact`, `Stats.C47_ordered_partial`, `Stats.C47_ratio_partial`, `Stats.C47_load`, `Stats.C47_concurrent_partial`, `Stats.C47_min_max_partial`, `Stats.C47_negated_ratio`, `Stats.C47_exposed_stable`, `Buffer.C48_copy_from`, `Buffer.C48_copy_to`, `Buffer.C48_panic`, `Buffer.C48_roundtrip`, `Buffer.C48_out_of_range`, `Buffer.Share.C48_value_semantics`, `Buffer.Share.C48_write_is_local`, `Buffer.C49_convex_partial`, `Buffer.C49_endpoints_partial`, `Buffer.C49_identity`, `Buffer.C49_exact_partial`, `Buffer.C49_negated_single_frame`, `Buffer.C49_negated_single_frame_witness`, `Buffer.C49_negated_length`, `Buffer.C50_rechunk_partial`, `Buffer.C50_same_rate_partial`, `Buffer.C50_negated_error`, `Buffer.C50_negated_channels`, `Buffer.C50_negated_resampled`, `Valid.C51_counts`, `Valid.C51_fft_size`, `Valid.C51_iir`, `Valid.C51_script_size_exact`, `Valid.C51_script_partial`, `Valid.C51_negated_script_size`, `Valid.C51_negated_script_outputs`, `Valid.C51_setter`, `Valid.C51_constructor`, `Valid.C51_created`, `Valid.C51_negated_splitter`, `Valid.C51_invariant`, `Valid.C51_answers`, `Valid.C51_panner_no_panic`, `Control.State.C52_closed_partial`, `Control.State.C52_effect_partial`, `Render.C53_inputs_are_this_quantum`, `Render.C53_inputs_reset_partial`, `Render.C55_muted_partial`, `Control.Sink.C56_negated`, `Param.curveTotal_exact`, `Param.C57_negated`, `Param.C57_rounded_hull`, `Param.C58_exact_partial`, `Param.C58_negated_zero`, `Param.C26_C27_new`, `Compressor.C59_curve`, `Compressor.C59_never_louder`, `Compressor.C59_gain_range`, `Compressor.C59_below_threshold`, `Compressor.C59_steady`, `Compressor.C59_time_constant`, `Compressor.C59_converges`, `Compressor.C59_level`, `Compressor.C59_output`, `Compressor.C60_makeup_partial`, `Compressor.C60_reduction_partial`, `Compressor.C60_negated_defaults`, `Compressor.C60_negated_attenuates`, `Compressor.C60_negated_reduction`, `Convolver.C61_level`, `Convolver.C61_level_independent`, `Convolver.C61_bounded`, `Source.C62_position_partial`, `Source.C62_negated_start`, `Panner.C63_formula_partial`, `Panner.C63_range`, `Panner.C63_antitone_partial`, `Panner.C63_full_partial`, `Panner.C63_negated_nan`, `Panner.C63_negated_ref`, `Panner.C64_reversed_partial`, `Panner.C64_range`, `Panner.C64_omni`, `Panner.C64_no_orientation_partial`, `Panner.C64_negated`, `Panner.C64_negated_no_orientation`, `Panner.C65_spherical`, `Panner.C65_frame_exists`, `Panner.C65_degenerate`, `Panner.C65_lateral_range`, `Panner.C65_lateral_exists`, `Panner.C65_power`, `Panner.C65_power_stereo`, `Panner.C65_hrtf_direction`, `Panner.C65_silence`, `Panner.C65_no_panic`, `Panner.C65_hrtf`, `Panner.C66_mono_partial`, `Panner.C66_stereo_partial`, `Panner.C66_negated`, `Panner.C67_tail_partial`, `Panner.C67_lost`, `Panner.C67_negated`, `Analyser.C68_tone`, `Analyser.C68_bound`, `Analyser.C68_silence`, `Analyser.C68_smoothing`, `Analyser.C68_reset`, `Analyser.C68_once`, `Analyser.C68_invariant`, `Analyser.C68_resize_negated`, `Analyser.C69_float`, `Analyser.C69_byte`, `Analyser.C69_byte_mono`, `Analyser.C69_byte_data`, `Analyser.C69_byte_time_partial`, `Analyser.C69_byte_time_clip`, `Analyser.C69_byte_time_excess_negated`, `Worklet.C70_new`, `Worklet.C70_process`, `Worklet.C70_compliant`, `Worklet.C70_found`, `Worklet.C70_run`, `Media.Destination.C71_never_blocks`, `Media.Destination.C71_order`, `Media.Destination.C71_fresh`, `Media.Destination.C71_channels_partial`, `Media.Recorder.C72_complete_partial`, `Media.Recorder.C72_once`, `Media.Recorder.Wav.C72_decode_partial`, `Media.Element.C73_messages`, `Media.Element.C73_paused`, `Media.Element.C73_play_partial`, `Media.Element.C73_loop`, `Media.Element.C73_panic`, `Media.Element.C73_batch_negated`, `Media.Element.C73_time_rate_negated`, `Media.Element.C73_time_end_negated`, `Media.Element.C73_rate_zero_negated`, `Media.Element.C73_reverse_negated`, `Media.Element.C73_seek_negated`, `Media.Element.C73_new_partial`, `Capacity.C74_partition`, `Capacity.C74_single_partial`, `Capacity.C74_disjoint_partial`, `Capacity.C74_interval_partial`, `Decode.C75_complete`, `Decode.C75_samples`, `Decode.C75_no_panic`, `Decode.C75_negated_corrupt`, `Decode.C75_negated_channels`, `Io.NoneBackend.C76_pace_partial`, `Io.NoneBackend.C76_suspended`, `Io.Microphone.C77_deinterleave`, `Io.Microphone.C77_negated_channels`, `Io.Config.C79_buffer_partial`, `Io.Config.C79_categories`, `Io.Config.C79_cpal`, `Io.Config.C79_cpal_input`, `Io.Config.C79_context`, `Io.Config.C79_honoured`, `Io.Config.C79_cubeb_partial`, `Io.Config.C79_sink_partial`, `Io.Config.C79_buffer_negated`, `Io.Config.C79_hint_negated`, `Io.Config.C79_cubeb_negated`, `Io.Config.C79_sink_negated`, `Io.Config.C79_buffer_range`, `Events.Offline.C81_offline_events`, `Events.Suspend.C82_suspended_partial`, `Events.Suspend.C82_progress_partial`, `Filter.C83_iir`, `Filter.C83_biquad_partial`, `Filter.C83_lengths`, `Filter.C83_negated_lowpass`, `Wiring.C84_wiring`, `Wiring.C84_refused`, `Wiring.C84_messages`, `Garbage.C86_at_most_once`, `Garbage.C86_exactly_once`, `Garbage.C86_render_partial`, `Param.C87_follows_partial`, `Param.C87_negated_past`, `Param.C88_plays_partial`, `Param.OnCurve.unique`, `Param.C88_negated_past`, `Param.C89_coherent_partial`, `Param.C89_never_other`, `Param.C89_settles`, `Param.C89_negated_race`, `Param.C89_negated_now`, `Param.C89_negated_boundary`, `Create.C90_documented`, `Create.C90_worklet`, `Create.C90_rate`, `Create.C90_sent_once`, `Create.C90_first_quantum`, `Attr.C91_oscillator`, `Attr.C91_buffer_source`, `Attr.C91_shaper_partial`, `Attr.C91_negated_empty`, `Attr.C91_convolver`, `Attr.C91_panner`, `Attr.C91_biquad`, `Node.C92_oversampled_two`, `Node.C92_oversampled_four`, `Node.C92_negated_pause`, `Node.C92_negated_pause_witness`, `Nan.C93_iir_partial`, `Nan.C93_iir_small`, `Nan.C93_biquad_partial`, `Nan.C93_biquad_small`, `Nan.C93_negated_pause_iir`, `Nan.C93_negated_pause_biquad`, `Nan.C93_negated_overflow`, `Nan.C94_gains_partial`, `Nan.C94_negated`, `Nan.C94_negated_reduction`, `Attr.C95_channel_config`, `Attr.C95_accepted`, `Attr.C95_progress`, `Attr.C95_automation_rate`, `Param.C96_envelope_partial`, `Param.C96_release_partial`, `Param.C96_negated_sustain`, `Param.C96_live_partial`, `Param.C97_turn_partial`, `Param.C97_linear_partial`, `Param.C97_negated_reached`, `Render.C98_history_partial`, `Render.C98_connection_order_partial`, `Render.C99_isolated_partial`, `Thread.C100_online_is_offline`, `Thread.C100_untouched`, `Whole.C100_graph`, `Engine.C101_louder`, `Engine.C101_louder_more`, `Engine.C101_louder_delays`, `Engine.C101_louder_delays_more`, `Render.soundS_ofSem`, `Engine.C101_louder_panner`, `Engine.C102_superposition_partial`, `Engine.C102_superposition_more_partial`, `Engine.C102_superposition_delays_partial`, `Engine.C102_superposition_delays_more_partial`, `Engine.C102_negated_max`, `Engine.C102_negated_reverb`, `Engine.C102_negated_delay_max`, `Engine.C102_superposition_panner_partial`, `Engine.C102_negated_panner_clamped`, `Engine.C102_negated_hrtf`, `Thread.C103_pause`, `Thread.C103_untouched`, `Render.C104_released_partial`, `Render.C104_idle_partial`, `Render.C104_stuck`, `Render.C104_negated`, `Tail.C105_compressor`, `Tail.C105_panner`, `Tail.C105_const`, `Tail.C105_osc`, `Tail.C105_buffer_stop`, `Tail.C105_buffer_partial`, `Tail.C105_fir_partial`, `Tail.C105_negated_integrator`, `Tail.C105_released_partial`, `Tail.C105_idle_partial`, `Delay.C106_recurrence`, `Delay.C106_echoes`, `Delay.C106_stable`, `Render.C107_params_are_this_quantum`, `Engine.C107_modulation`, `Param.C108_later_partial`, `Param.invariant_exact`, `Param.C108_negated_now`, `Whole.C109_device`, `Whole.C109_device_safe`, `Whole.C109_live`, `Whole.C110_later_partial`, `Whole.C110_negated_buffer`, `Render.C111_equations`, `Render.C111_any_order`, `Whole.C112_score`, `Whole.C112_band`, `Whole.C112_tones`, `Whole.C112_constant`, `Whole.C112_envelope`, `Whole.C112_oscillator_partial`, `Whole.C113_program`, `Whole.C113_live`, `Whole.C114_program`, `Whole.C114_live`, `Param.C115_exact_partial`, `Param.C115_sampled_partial`, `Param.C115_negated_boundary`, `Whole.C116_program`, `Whole.C116_live`, `Source.C117_tune`, `Source.C117_triangle`, `Source.C44_negated_rounding`, `Source.C117_corrected`, `Source.C117_negated_jump`, `Source.C118_samples`, `Source.C118_frame`, `Source.C118_handover`, `Source.C118_kinds`, `Source.rounds_rnd`, `Source.calm_f64`, `Source.C118_negated_kinds`, `Source.C118_negated_buffers`, `Mix.C119_mix_partial`, `Mix.C119_sum`, `Mix.C119_spec_partial`, `Mix.C119_layouts_partial`, `Mix.C119_order_partial`, `Mix.C119_negated_order`, `Engine.C120_delay`, `Engine.C120_alone`, `Engine.C120_input`, `Mix.C121_power`, `Mix.C121_before_after`, `Mix.C121_negated_factor`, `Filter.C121_filters`, `Filter.C121_negated_filter`

