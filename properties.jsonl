{"id": "C01", "title": "Connected nodes are processed upstream-first", "statement": "Whenever the rendering thread (re)computes the processing order, then for every connection (audio or AudioParam) u -> v between two nodes that are scheduled, u is processed before v in each quantum, and no node is scheduled twice.", "quantifier": "all graphs: any set of node ids, any multiset of connections including self loops, parallel edges, cycles and AudioParam edges, any set of delay (cycle breaker) nodes", "why_tests_cant": "The space of directed graphs with cycles is unbounded; unit tests check a handful of 3-5 node shapes.", "anchors": ["src/render/graph.rs: Graph::visit, Graph::order_nodes", "src/render/graph.rs: Graph::render"]}
{"id": "C02", "title": "Ordering terminates and an acyclic graph is rendered in full", "statement": "Recomputing the order always finishes. If the connections contain no cycle then every live node is scheduled exactly once and no connection is removed.", "quantifier": "all graphs", "why_tests_cant": "Termination of a restart loop over all graphs and completeness for every DAG cannot be sampled.", "anchors": ["src/render/graph.rs: Graph::order_nodes, Graph::visit"]}
{"id": "C03", "title": "Only cycles are cut: delay nodes break cycles, delay-free cycles are muted", "statement": "Resolving cycles removes connections only from delay nodes that lie on a cycle, and it drops a node from the order only if that node lies on a cycle of the remaining connections. After ordering, every cycle of the remaining connections contains a muted node.", "quantifier": "all graphs with any placement of delay nodes", "why_tests_cant": "Requires quantifying over all paths/cycles in all graphs.", "anchors": ["src/render/graph.rs: Graph::visit, Graph::order_nodes", "src/node/delay.rs: DelayNode::new (mark_cycle_breaker)"]}
{"id": "C04", "title": "Every node on a delay-free cycle is muted", "statement": "A node that lies on a cycle of connections which contains no delay node produces no output (is not scheduled).", "quantifier": "all graphs", "why_tests_cant": "Depends on the DFS visiting order for every possible graph.", "anchors": ["src/render/graph.rs: Graph::visit (in_cycle)", "src/render/graph.rs: Graph::order_nodes"]}
{"id": "C05", "title": "Every live node is processed in every quantum, whatever order the control messages arrive in", "statement": "After any sequence of node registrations, connects, disconnects and drops handled between two quanta, the next rendered quantum processes every live node that is not on a cycle.", "quantifier": "all finite sequences of control messages interleaved with rendered quanta", "why_tests_cant": "Message batching between quanta depends on the race of control and render thread; tests use one fixed batch.", "anchors": ["src/render/graph.rs: Graph::add_node, add_edge, remove_edge, render", "src/render/thread.rs: handle_control_message"]}
{"id": "C06", "title": "A node is only destroyed when nobody can hear or control it", "statement": "The rendering thread removes a node only in a quantum in which (a) its processor panicked, or (b) its control handle was dropped before, and either it received no input in this quantum and (it reported no tail or it has no outgoing connection), or it has no outgoing connection and no side effects. A node with a live handle is never removed as long as its processor does not panic.", "quantifier": "all graphs, all tail-time answers of all processors, all histories of quanta and messages", "why_tests_cant": "Lifetime decisions depend on the whole history of connections, handle drops and tail answers.", "anchors": ["src/render/graph.rs: Node::can_free, Graph::render"]}
{"id": "C07", "title": "Removing a node leaves no dangling connection", "statement": "In every reachable state of the rendering thread every connection points from a live node to a live node and the destination node is never removed while its handle is alive; destroyed nodes disappear from the order.", "quantifier": "all message/quantum histories", "why_tests_cant": "Needs an invariant over all histories.", "anchors": ["src/render/graph.rs: Graph::render (removal), add_edge, remove_edge"]}
{"id": "C08", "title": "Node ids are unique among live nodes", "statement": "At any time no two nodes that are alive on the rendering thread, or whose registration is still in flight, or which are controlled by a live handle, carry the same id, although ids are recycled.", "quantifier": "all interleavings of node creation, handle drop, message delivery, quantum rendering and id reclaim", "why_tests_cant": "Id recycling is a cross-thread protocol (control thread, message queue, render thread, reclaim queue); interleavings are unbounded.", "anchors": ["src/context/concrete_base.rs: AudioNodeIdProvider::get, register, mark_node_dropped", "src/render/graph.rs: ReclaimId, Graph::render", "src/render/node_collection.rs"]}
{"id": "C09", "title": "Control messages always find their node", "statement": "A message posted through a node handle (start, stop, parameter event, channel configuration, connect, ...) is delivered to exactly the processor that was created with this handle, never to another node and never to a missing node.", "quantifier": "all interleavings of creation, messages, drops, rendering, panicking processors", "why_tests_cant": "Same as above, plus crash points: a processor panic may occur in any quantum.", "anchors": ["src/render/thread.rs: handle_control_message", "src/render/graph.rs: route_message, set_channel_*", "src/context/concrete_base.rs: send_control_msg"]}
{"id": "C10", "title": "Connections behave like a set", "statement": "After any sequence of connect and disconnect calls (including disconnect of an output, of a destination, of everything) the signal of output o of A reaches input i of B exactly once iff the last operation that concerns (A,o,B,i) was a connect. Reconnecting an existing connection has no effect.", "quantifier": "all sequences of connect/disconnect calls with all argument variants", "why_tests_cant": "Unbounded op sequences.", "anchors": ["src/context/concrete_base.rs: connect, disconnect", "src/render/graph.rs: add_edge, remove_edge", "src/node/audio_node.rs: AudioNode::connect*, disconnect*"]}
{"id": "C11", "title": "Disconnect takes effect also when the other handle is gone", "statement": "Calling disconnect() on a node removes all its outgoing connections, also those to nodes whose control handle has been dropped in the meantime.", "quantifier": "all histories of connect, handle drop, disconnect", "why_tests_cant": "History dependent.", "anchors": ["src/context/concrete_base.rs: mark_node_dropped, disconnect"]}
{"id": "C12", "title": "Channel up/down-mixing follows the specified matrices", "statement": "Mixing any quantum from n to m channels yields exactly m channels, whose samples are those of the Web Audio mixing rules for 'speakers' (1,2,4,6 channel layouts) and 'discrete' (truncate or pad with silence).", "quantifier": "all channel counts 1..32, all sample values, both interpretations", "why_tests_cant": "32*32*2 cases times all sample values.", "anchors": ["src/render/quantum.rs: AudioRenderQuantum::mix, mix_inner"]}
{"id": "C13", "title": "Summing into an input equals the specified mix-then-sum", "statement": "The signal at a node input is the samplewise sum of all connected outputs, each mixed individually to the input's computed channel count (max / clamped-max / explicit); it does not depend on the order in which connections are summed.", "quantifier": "all multisets of incoming quanta with any channel counts and any sharing of channel memory; all count modes and interpretations", "why_tests_cant": "Order independence over all permutations, channel layouts and sharing patterns.", "anchors": ["src/render/quantum.rs: AudioRenderQuantum::add", "src/render/graph.rs: Graph::render"]}
{"id": "C14", "title": "Copy-on-write buffers never leak writes", "statement": "Writing samples through one channel handle never changes the samples observed through any other handle, and silence stays silent: the shared zero buffer is never modified, even though buffers are shared, cloned, dropped and recycled through the pool.", "quantifier": "all sequences of allocate / clone / drop / write / make silent over any number of handles", "why_tests_cant": "Aliasing bugs show up only in particular alloc/clone/drop histories.", "anchors": ["src/render/quantum.rs: Alloc, AudioRenderQuantumChannel::make_mut, add, drop"]}
{"id": "C15", "title": "Output stream is independent of the hardware callback size", "statement": "The concatenation of the frames written to the audio device is the concatenation of the rendered quanta (interleaved), for every sequence of callback buffer sizes; no frame is lost, duplicated or reordered at callback borders.", "quantifier": "all finite sequences of callback lengths (multiples of the channel count), all quantum streams", "why_tests_cant": "Callback sizes are chosen by the OS and vary at run time.", "anchors": ["src/render/thread.rs: RenderThread::render_inner (buffer_offset)"]}
{"id": "C16", "title": "Suspend silences the output from the moment it is processed", "statement": "Once a suspend/close request is processed no further quantum is rendered and time does not advance until resume; requests processed while a large device callback is being filled are safe.", "quantifier": "all positions of control messages relative to quanta inside a callback", "why_tests_cant": "Race between control message arrival and callback progress.", "anchors": ["src/render/thread.rs: render_inner, handle_control_message"]}
{"id": "C17", "title": "Offline rendering yields exactly the requested number of frames", "statement": "start_rendering returns a buffer with exactly the requested channel count and length, whose frame k is frame k mod 128 of quantum k / 128, for lengths that are not multiples of the quantum size too.", "quantifier": "all lengths, channel counts, quantum streams (with any, possibly varying channel count)", "why_tests_cant": "Unbounded lengths and channel combinations.", "anchors": ["src/render/thread.rs: render_audiobuffer_sync, render_offline_quantum", "src/context/offline.rs: start_rendering_sync"]}
{"id": "C18", "title": "Offline suspend callbacks run exactly once at the requested quantum", "statement": "A callback scheduled with suspend(t) (0 <= t < duration) runs exactly once, after all quanta that end at or before t rounded up to the quantum grid and before any later quantum, in order of time.", "quantifier": "all sets of suspend times and all lengths", "why_tests_cant": "Rounding and ordering for all reals/sets.", "anchors": ["src/context/offline.rs: calculate_suspend_frame, suspend, suspend_sync", "src/render/thread.rs: render_audiobuffer_sync"]}
{"id": "C19", "title": "Control messages are processed in the order they were sent, none is lost", "statement": "Messages sent by a thread are processed by the rendering thread in program order, exactly once, including messages sent while the context is suspended (buffered) and flushed at resume.", "quantifier": "all interleavings of several control threads with suspend/resume calls", "why_tests_cant": "Scheduling nondeterminism.", "anchors": ["src/context/concrete_base.rs: send_control_msg, suspend_control_msgs, resume_control_msgs"]}
{"id": "C20", "title": "currentTime is monotone and counts rendered frames", "statement": "currentTime observed by any thread never decreases and always equals 128*q/sampleRate where q is the number of quanta started; it advances by one quantum per rendered quantum and does not advance while suspended.", "quantifier": "all histories", "why_tests_cant": "Histories unbounded.", "anchors": ["src/render/thread.rs: render_inner, render_offline_quantum", "src/context/concrete_base.rs: current_time"]}
{"id": "C21", "title": "Event handlers: Once fires at most once, Multiple keeps firing, replacement wins", "statement": "A 'once' handler runs at most once; a persistent handler runs for every event of its type as long as it is registered; setting or clearing a handler takes effect for all later events, even when done from inside a handler.", "quantifier": "all interleavings of events and set/clear handler calls, including calls made inside handlers", "why_tests_cant": "Unbounded histories, reentrancy.", "anchors": ["src/events.rs: EventLoop::handle_event, set_handler, clear_handler"]}
{"id": "C22", "title": "Handlers belong to their node", "statement": "An event handler registered on a node is only invoked for events of that node, not for events of a later node which happens to reuse its internal id.", "quantifier": "all histories of node creation, drop, id reuse and events", "why_tests_cant": "History dependent.", "anchors": ["src/events.rs: EventLoop, EventType", "src/node/scheduled_source.rs: set_onended", "src/context/concrete_base.rs: AudioNodeIdProvider"]}
{"id": "C23", "title": "AudioParam values always stay within nominal range and are never NaN", "statement": "Every value of a parameter that a node processor sees lies within [minValue, maxValue] and is not NaN, whatever automation was scheduled and whatever signal (including NaN) is connected to the parameter.", "quantifier": "all timelines, all inputs, both automation rates", "why_tests_cant": "All inputs and timelines.", "anchors": ["src/param.rs: AudioParamProcessor::mix_to_output"]}
{"id": "C24", "title": "Automation yields one value or exactly one value per frame", "statement": "In every quantum the automation computation terminates and yields exactly 1 or exactly 128 values, never more (which would overflow the fixed buffer) or fewer; a-rate buffers collapse to 1 only if all values are equal.", "quantifier": "all timelines (any events, any order, any times), any block time, both rates", "why_tests_cant": "All timelines; a missed case shows only for special alignments of events and block borders.", "anchors": ["src/param.rs: compute_buffer, compute_*_automation"]}
{"id": "C25", "title": "The automation timeline is always sorted and stable", "statement": "After any sequence of scheduling calls the pending events are sorted by time, and events scheduled for the same time keep their insertion order.", "quantifier": "all sequences of scheduling calls interleaved with rendering", "why_tests_cant": "Unbounded sequences.", "anchors": ["src/param.rs: AudioParamEventTimeline, handle_incoming_event"]}
{"id": "C26", "title": "setValueAtTime is sample accurate", "statement": "With only setValueAtTime events scheduled, the value at any frame is the value of the last event whose time is not after this frame (the initial value if there is none), regardless of how frames are grouped into quanta.", "quantifier": "all event lists, all times (on or off the sample grid, equal times), all frames", "why_tests_cant": "All times incl. coincidences with block borders.", "anchors": ["src/param.rs: compute_set_value_automation, compute_buffer"]}
{"id": "C27", "title": "Linear ramps interpolate exactly", "statement": "Between the previous event (t0,v0) and a linear ramp event (t1,v1) the value at every frame time t is v0+(v1-v0)(t-t0)/(t1-t0), and v1 afterwards; ramps stay between v0 and v1 and are independent of the quantum partition.", "quantifier": "all t0<t1, all values, all frames, all block alignments", "why_tests_cant": "Continuum of parameters.", "anchors": ["src/param.rs: compute_linear_ramp_automation, compute_linear_ramp_sample"]}
{"id": "C28", "title": "Scheduling automation never kills the audio engine", "statement": "No sequence of accepted AudioParam scheduling calls makes the rendering thread panic.", "quantifier": "all sequences of scheduling calls and all quanta between them", "why_tests_cant": "All orders of event times.", "anchors": ["src/param.rs: handle_incoming_event, compute_buffer (last_event.unwrap())"]}
{"id": "C29", "title": "setTargetAtTime has no effect before its start time", "statement": "Before the start time of a setTargetAtTime or setValueCurveAtTime event, the parameter keeps the value given by the preceding events.", "quantifier": "all start times and preceding events", "why_tests_cant": "All alignments.", "anchors": ["src/param.rs: compute_set_target_automation, compute_set_value_curve_automation"]}
{"id": "C30", "title": "cancelScheduledValues removes exactly the events at or after the cancel time", "statement": "After cancelScheduledValues(t) exactly the events with time < t remain (ramps that end at or after t are removed too), and values before t are unaffected.", "quantifier": "all timelines and t", "why_tests_cant": "All timelines.", "anchors": ["src/param.rs: handle_incoming_event (CancelScheduledValues)"]}
{"id": "C31", "title": "cancelAndHoldAtTime holds the value", "statement": "After cancelAndHoldAtTime(t) the parameter keeps, from t on, the value it would have had at t, until the next event scheduled after it takes effect.", "quantifier": "all timelines, t and later events", "why_tests_cant": "All timelines.", "anchors": ["src/param.rs: handle_incoming_event (CancelAndHoldAtTime), compute_*"]}
{"id": "C32", "title": "Scheduled sources are sample accurate and end once", "statement": "A constant source outputs its offset exactly for the frames whose time lies in [start, stop) and zero elsewhere, for all start/stop times, and the ended event is emitted at most once, and only after stop was reached or the source was destroyed after having been started.", "quantifier": "all start/stop times, block partitions, and lifetimes", "why_tests_cant": "All real times / histories.", "anchors": ["src/node/constant_source.rs: ConstantSourceRenderer::process, before_drop", "src/node/scheduled_source.rs"]}
{"id": "C33", "title": "Buffer playback at natural rate is bit exact, looping is periodic", "statement": "Playing a buffer at its natural rate from the start, frame n of the output equals frame n of the buffer (n mod length when looping), regardless of buffer length in relation to the quantum size; afterwards output is silent; ended is emitted at most once.", "quantifier": "all buffer lengths and contents, all frames, loop on/off", "why_tests_cant": "All lengths.", "anchors": ["src/node/audio_buffer_source.rs: AudioBufferSourceRenderer::process (fast track)"]}
{"id": "C34", "title": "Buffer source interpolates between neighbouring frames only", "statement": "On the slow path every output sample is a convex combination of two adjacent buffer frames (or wraps to the loop start / extrapolates at the end as specified) and no index is out of bounds, whatever playback rate, detune, loop points, offsets and durations.", "quantifier": "all rates, loop points, offsets, durations, sample rates", "why_tests_cant": "Continuum of parameters.", "anchors": ["src/node/audio_buffer_source.rs: process (slow track), clamp_loop_boundaries"]}
{"id": "C35", "title": "DelayNode delays by exactly the requested time", "statement": "The output of a delay node at frame n is the input at frame n - delay*sampleRate (linear interpolation between frames, silence before the beginning), for a delay up to maxDelayTime; inside a cycle the delay is at least one quantum; nothing else is ever played.", "quantifier": "all inputs, delay curves, max delays, channel counts, quantum histories, including node shutdown", "why_tests_cant": "Ring buffer wrap-around over unbounded histories.", "anchors": ["src/node/delay.rs: DelayWriter, DelayReader::process, get_playback_infos"]}
{"id": "C36", "title": "AnalyserNode time domain data is the most recent window", "statement": "get_float_time_domain_data returns the last fftSize mono samples in order (zeros before the beginning of time), even while the rendering thread concurrently writes up to one quantum.", "quantifier": "all numbers of rendered quanta, all fft sizes, all positions of the concurrent write", "why_tests_cant": "Ring wrap-around and races.", "anchors": ["src/analysis.rs: AnalyserRingBuffer::write, read", "src/node/analyser.rs: process"]}
{"id": "C37", "title": "ScriptProcessorNode frames its input exactly", "statement": "The input buffers delivered to onaudioprocess partition the input stream into consecutive chunks of bufferSize frames, and the buffer produced for a chunk is played back in order with constant latency.", "quantifier": "all buffer sizes, all streams", "why_tests_cant": "Unbounded streams.", "anchors": ["src/node/script_processor.rs: ScriptProcessorRenderer::process, onmessage"]}
{"id": "C38", "title": "Merger and splitter are inverse", "statement": "Splitting a quantum into its channels and merging them again gives the original quantum; output channel i of the merger carries the (down-mixed) signal of input i and of no other input; splitter output i carries channel i or silence.", "quantifier": "all channel counts and samples", "why_tests_cant": "All counts/samples.", "anchors": ["src/node/channel_merger.rs: process", "src/node/channel_splitter.rs: process"]}
{"id": "C39", "title": "WaveShaper evaluates its curve inside bounds", "statement": "Every output sample is the piecewise linear interpolation of the curve at the clamped input position; it never reads outside the curve and always lies between the minimum and maximum of the curve.", "quantifier": "all curves, all inputs", "why_tests_cant": "All reals.", "anchors": ["src/node/waveshaper.rs: apply_curve, process"]}
{"id": "C40", "title": "Gain scales every sample", "statement": "The output of a gain node equals input times gain for each frame, up to an error of 1e-6 relative to the input, including the mute and pass-through shortcuts.", "quantifier": "all inputs, gain curves", "why_tests_cant": "All reals.", "anchors": ["src/node/gain.rs: GainRenderer::process"]}
{"id": "C41", "title": "StereoPanner is equal-power", "statement": "For mono input the sum of squared left and right gains is 1 for every pan value; pan -1/+1 route everything to one side; for stereo inputs pan 0 is the identity.", "quantifier": "all pan values in [-1,1], all samples", "why_tests_cant": "Continuum.", "anchors": ["src/node/stereo_panner.rs: get_stereo_gains, process"]}
{"id": "C42", "title": "IIR filter satisfies its difference equation", "statement": "For all inputs y[n]*a0 = sum b_k x[n-k] - sum_{k>=1} a_k y[n-k], across quantum borders; once the node reports the end of its tail all further output for silent input is zero.", "quantifier": "all coefficient lists up to order 20, all input streams", "why_tests_cant": "Unbounded streams.", "anchors": ["src/node/iir_filter.rs: IirFilterRenderer::new, process"]}
{"id": "C43", "title": "Biquad filters are stable and honour their frequency response landmarks", "statement": "For every frequency, Q and gain, the coefficients computed by the biquad filter lie in the stability triangle (strictly, when 0 < f < nyquist), lowpass/lowshelf etc. have the specified gain at DC/Nyquist, and allpass has unit magnitude; the recursion computes the normalised difference equation.", "quantifier": "all real parameter values", "why_tests_cant": "Continuum.", "anchors": ["src/node/biquad_filter.rs: get_*_coefs, process"]}
{"id": "C44", "title": "Oscillator phase and table lookups stay in range", "statement": "The oscillator phase stays in [0,1) for every frequency/detune curve below Nyquist and all table indices are within bounds; wave shapes stay within [-1,1] (sine interpolation, triangle, un-corrected square and saw).", "quantifier": "all frequency curves, all frames", "why_tests_cant": "Unbounded streams of reals.", "anchors": ["src/node/oscillator.rs: process, generate_sample, unroll_phase", "src/periodic_wave.rs"]}
{"id": "C45", "title": "Compressor look-ahead delay is constant and its tail is complete", "statement": "The compressor output is its input delayed by a constant number of quanta (about 6 ms), multiplied by the gain; every sample that enters is eventually output even when all handles are dropped.", "quantifier": "all inputs and histories", "why_tests_cant": "Histories.", "anchors": ["src/node/dynamics_compressor.rs: process"]}
{"id": "C46", "title": "Convolver tail is complete per channel", "statement": "After the input becomes silent the convolver outputs the complete reverb tail of each channel and then reports the end of its tail.", "quantifier": "all inputs and impulse lengths", "why_tests_cant": "Histories.", "anchors": ["src/node/convolver.rs: ConvolverRenderer::process"]}
{"id": "C47", "title": "Playback statistics are exact counters", "statement": "Underrun counters equal the number of maximal runs of underrun callbacks and their duration; min <= average <= max latency in every snapshot; ratio figures are within [0,1].", "quantifier": "all callback histories and interleavings with snapshot/reset", "why_tests_cant": "Interleavings of atomics.", "anchors": ["src/stats.rs", "src/playback_stats.rs", "src/capacity.rs"]}
{"id": "C48", "title": "AudioBuffer copy operations are exact and bounded", "statement": "copy_from_channel(src, ch, off) then copy_to_channel(dst, ch, off) returns the written samples; nothing outside [off, off+len) nor any other channel changes; cloned buffers are isolated; out-of-range offsets write nothing.", "quantifier": "all lengths, offsets, channels", "why_tests_cant": "All sizes.", "anchors": ["src/buffer.rs: copy_from_channel_with_offset, copy_to_channel_with_offset, ChannelData"]}
{"id": "C49", "title": "Resampling keeps duration, endpoints and range", "statement": "AudioBuffer::resample to another rate yields ceil(length*ratio) frames, the first and last sample are preserved, every sample is a finite convex combination of two neighbouring source samples; resampling to the same rate is the identity.", "quantifier": "all buffers, all rates", "why_tests_cant": "All sizes and rates.", "anchors": ["src/buffer.rs: AudioBuffer::resample"]}
{"id": "C50", "title": "Media streams are re-chunked without loss", "statement": "A media stream delivered in arbitrary chunk sizes is played as the same sample sequence cut in quanta of 128 frames, padded with zeros at the end only.", "quantifier": "all chunk sequences", "why_tests_cant": "All partitions.", "anchors": ["src/resampling.rs: Resampler::next", "src/buffer.rs: extend, split_off", "src/node/media_stream_source.rs"]}
{"id": "C51", "title": "Argument validation accepts exactly the documented values", "statement": "Constructors and setters accept exactly the documented sample rates, channel counts, buffer sizes, fft sizes and times, and reject everything else with a panic on the calling thread.", "quantifier": "all argument values", "why_tests_cant": "All values.", "anchors": ["src/lib.rs: assert_valid_*", "src/analysis.rs: assert_valid_fft_size", "src/node/script_processor.rs: new", "src/node/audio_node.rs: ChannelConfig"]}
{"id": "C52", "title": "Closed contexts stay closed", "statement": "State transitions observed through the API follow suspended <-> running -> closed; once closed no control message reaches the render thread.", "quantifier": "all sequences of suspend/resume/close/set_sink_id calls", "why_tests_cant": "Unbounded sequences, interleavings.", "anchors": ["src/context/online.rs: suspend_sync, resume_sync, close_sync, set_sink_id_sync", "src/context/concrete_base.rs: set_state"]}
{"id": "C53", "title": "A node's input holds exactly what its upstream nodes produced in this quantum", "statement": "When a node is processed, each of its inputs is the mix of exactly the output buffers its connected upstream nodes have produced in the same render quantum: nothing from earlier quanta, nothing twice.", "quantifier": "all graphs, processors and quanta of all histories", "why_tests_cant": "Depends on the buffers left over from all previous quanta and on every graph shape.", "anchors": ["src/render/graph.rs: render"]}
{"id": "C54", "title": "A failing node constructor does not harm the audio engine", "statement": "If constructing a node panics on the control thread (invalid options), the context keeps rendering.", "quantifier": "all histories of node creation, all points of failure", "why_tests_cant": "Depends on how many ids have been handed out before.", "anchors": ["src/context/concrete_base.rs: register, mark_node_dropped", "src/render/graph.rs: mark_control_handle_dropped", "src/render/node_collection.rs: get_mut"]}
{"id": "C55", "title": "A muted destination is silent", "statement": "When the destination becomes part of a delay-free cycle and is therefore muted, the context outputs silence.", "quantifier": "all graphs in which the destination lies on a cycle, all previous outputs", "why_tests_cant": "Depends on the buffer left by the last processed quantum.", "anchors": ["src/render/graph.rs: render, order_nodes", "src/node/destination.rs: number_of_outputs"]}
{"id": "C56", "title": "Changing the output device returns", "statement": "AudioContext::set_sink_id_sync returns, and control messages can be sent afterwards, whatever was scheduled before.", "quantifier": "all interleavings of user threads sending control messages and changing the sink, all numbers of pending control messages", "why_tests_cant": "Needs messages that are still pending at the moment of the change; tests change the sink of an idle context.", "anchors": ["src/context/online.rs: set_sink_id_sync", "src/context/concrete_base.rs: send_control_msg, lock_control_msg_sender"]}
{"id": "C57", "title": "Value curves are read within bounds", "statement": "Rendering a setValueCurveAtTime automation never reads outside the curve: for every accepted start time, duration and curve (two or more values), and every render time, the render thread does not panic.", "quantifier": "all curves, start times, durations and frame times", "why_tests_cant": "Only particular roundings of the position land on the last index.", "anchors": ["src/param.rs: compute_set_value_curve_sample"]}
{"id": "C58", "title": "Exponential ramps interpolate geometrically", "statement": "During exponentialRampToValueAtTime the value at time t is v0 (v1/v0)^((t-t0)/(t1-t0)), between the end values, whatever the alignment of the ramp to render quanta; afterwards it is v1.", "quantifier": "all schedules, event times and frames", "why_tests_cant": "All times and alignments.", "anchors": ["src/param.rs: compute_exponential_ramp_sample, compute_exponential_ramp_automation"]}
{"id": "C59", "title": "The compressor applies the curve that its parameters describe", "statement": "The compression curve leaves levels below the threshold alone, has slope 1/ratio above threshold + knee and slopes between 1/ratio and 1 in between (continuous, never louder). The gain follows the curve with the attack time constant when it goes down and the release time constant when it goes up, converges for a steady level, and never exceeds the makeup gain.", "quantifier": "all parameter values in range, levels and histories", "why_tests_cant": "All parameters, all signal histories and limits.", "anchors": ["src/node/dynamics_compressor.rs: process"]}
{"id": "C60", "title": "Makeup gain and metering of the compressor", "statement": "The makeup gain is the 0.6 power of the inverse of what the compression curve makes of full scale, hence never attenuates; reduction is the gain reduction in dB, never positive and 0 for silence.", "quantifier": "all parameter values and histories", "why_tests_cant": "All parameters; tests check a few values.", "anchors": ["src/node/dynamics_compressor.rs: process, reduction"]}
{"id": "C61", "title": "Normalised convolution has a level of its own", "statement": "With normalize on, the scaled impulse response has a power that depends only on the sample rate and on whether it has four channels, not on the level at which the response was recorded; for very soft responses the gain stays bounded.", "quantifier": "all impulse responses and sample rates", "why_tests_cant": "All buffers.", "anchors": ["src/node/convolver.rs: normalize_buffer, set_buffer"]}
{"id": "C62", "title": "A scheduled buffer source plays the right position at every frame", "statement": "A buffer source that is given a buffer, started at a time with an offset and a duration, and possibly told to stop, is silent before the start time, from the stop time on, and once the duration is used up. At every other frame it plays the buffer at the offset plus the time played so far weighted with playback rate and detune, folded into the loop once the loop has been entered: the frame itself when the position is a frame of the buffer, the linear interpolation of the two neighbours otherwise. It does not matter whether the copying or the interpolating code path is taken, nor when it changes.", "quantifier": "all buffers, sample rates, quantum sizes, start and stop times, offsets, durations, loop points, sequences of playback rates, all frames", "why_tests_cant": "The position is the sum over an unbounded history with two code paths and sub-sample start times; tests sample a few combinations.", "anchors": ["src/node/audio_buffer_source.rs: AudioBufferSourceRenderer::process", "src/node/audio_buffer_source.rs: clamp_loop_boundaries"]}
{"id": "C63", "title": "Distance gain of the panner", "statement": "The gain of the distance models is the one of the Web Audio API for every distance and every setting the API accepts: a number between 0 and 1, 1 up to the reference distance, never growing with the distance.", "quantifier": "all settings accepted by constructor and setters, all distances", "why_tests_cant": "Continuum of settings, including the edges that the setters accept; tests use defaults.", "anchors": ["src/node/panner.rs: dist_gain"]}
{"id": "C64", "title": "Cone gain of the panner", "statement": "A source is at full level for a listener inside its inner cone, in particular when it points at the listener, has the outer gain for a listener outside its outer cone, and is interpolated linearly in between; without orientation or with full angles there is no cone.", "quantifier": "all settings, positions and orientations", "why_tests_cant": "Geometry over all positions; the sign of the direction cannot be seen from tests at symmetric positions.", "anchors": ["src/node/panner.rs: cone_gain", "src/spatial.rs: angle"]}
{"id": "C65", "title": "The panner renders the direction of the source", "statement": "Azimuth and elevation are the spherical coordinates of the source in the axes of the listener, for every position and orientation of the listener. Equal power panning splits the power of a mono source according to the lateral position of the source and moves the far channel of a stereo source over with constant power.", "quantifier": "all positions, orientations of the listener, inputs", "why_tests_cant": "Three dimensional geometry with case distinctions on quadrants; tests check a handful of directions.", "anchors": ["src/spatial.rs: azimuth_and_elevation", "src/node/panner.rs: apply_mono_to_stereo_gain, apply_stereo_to_stereo_gain"]}
{"id": "C66", "title": "Sample accurate automation of panner and listener", "statement": "In equal power mode each frame is rendered for the values that position and orientation of source and listener have in that frame.", "quantifier": "all parameter values per frame, all inputs, all frames", "why_tests_cant": "The shortcut for static parameters depends on which of fifteen parameters moves.", "anchors": ["src/node/panner.rs: PannerRenderer::process"]}
{"id": "C67", "title": "The HRTF panner plays its tail after every sound", "statement": "After a sound ends the HRTF panner continues to render and stays alive until the impulse responses have decayed, each time a sound ends.", "quantifier": "all sequences of silent and sounding quanta, all impulse responses", "why_tests_cant": "Depends on the whole history of the node; tests render one sound.", "anchors": ["src/node/panner.rs: PannerRenderer::process, tail_time_counter"]}
{"id": "C68", "title": "Spectrum of the analyser", "statement": "The frequency data are the Blackman windowed spectrum of the last fftSize samples, smoothed over the windows analysed, one per render quantum in which data are asked for: a tone in the middle of a bin shows in that bin and two on each side at known levels and nowhere else, a signal within full scale stays below -7.5 dB, silence is -infinity, and a NaN in the signal does not stay in the smoothed data.", "quantifier": "all sizes, tones, phases, windows, smoothing constants, sequences of calls and times", "why_tests_cant": "Trigonometric sums for every size and bin, and arbitrary histories of calls.", "anchors": ["src/analysis.rs: generate_blackman, compute_fft, set_fft_size, get_float_frequency_data"]}
{"id": "C69", "title": "Conversion of analyser data", "statement": "Float data are levels in dB, byte data map minDecibels..maxDecibels linearly to 0..255, louder bins never get smaller bytes, both forms report the same analysis, time domain bytes are 128 per unit around 128, and excess elements of the array are left alone.", "quantifier": "all levels, ranges, array lengths, samples", "why_tests_cant": "Rounding and limiting over a continuum of values.", "anchors": ["src/analysis.rs: get_byte_frequency_data, get_byte_time_domain_data"]}
{"id": "C70", "title": "Audio worklet nodes pass inputs, outputs and parameters as declared", "statement": "A worklet processor is called once per quantum with all connected inputs, with as many output channels as declared or, by default, as the input has, with every parameter of the node under its name, and its outputs are what is sent on; silent outputs if it writes nothing.", "quantifier": "all numbers of inputs and outputs, channel counts, parameter maps, quanta and sequences of them", "why_tests_cant": "The table of slices is rebuilt from raw pointers per quantum; all shapes and histories.", "anchors": ["src/worklet.rs: AudioWorkletNode::new, AudioWorkletRenderer::process, AudioParamValues"]}
{"id": "C71", "title": "The stream of a media stream destination node", "statement": "The render thread never waits for the reader of the stream; the reader gets rendered buffers in order, each at most once and always the latest, all of them if it keeps up; they have as many channels as the node; the stream ends when the node does.", "quantifier": "all interleavings of render thread and reader, all buffers, connections and configurations", "why_tests_cant": "Interleavings of two threads over a bounded channel.", "anchors": ["src/node/media_stream_destination.rs: DestinationRenderer::process, AudioDestinationNodeStream::next"]}
{"id": "C72", "title": "Recordings are complete and in order", "statement": "A recorder delivers the header and all chunks of the track in order without gaps or repetitions, ends with exactly one stop event after the last data, reports errors of the track once, can be stopped at any time without losing recorded data and then be started again, and its file decodes to the samples of the stream.", "quantifier": "all tracks, interleavings of recorder threads and callers of stop and start, chunk sizes and limits", "why_tests_cant": "Interleavings of threads, and streams of any length.", "anchors": ["src/media_recorder/mod.rs: start, stop, record, flush, handle_error, encode_first, encode_next"]}
{"id": "C73", "title": "Playback of a media element", "statement": "Control actions of a media element take effect in the order given and within one render quantum; paused it is silent and does not move; playing it yields the frames of the file in order, looping without a gap; currentTime is the position in the file; any playback rate can be set.", "quantifier": "all files, action sequences, playback rates, numbers of chunks", "why_tests_cant": "Arbitrary sequences of actions and files of any length.", "anchors": ["src/media_element.rs: RTSStream::next, MediaElement setters"]}
{"id": "C74", "title": "Collection of render capacity", "statement": "Between start and stop one collector reports, at most once per interval, consecutive periods that together cover all callbacks, none twice; stop ends the collection and returns, whichever thread calls it; dropping the context ends it too.", "quantifier": "all interleavings of callers, collectors, event thread and render callbacks, all intervals", "why_tests_cant": "Interleavings of several threads over rendezvous channels and a bounded queue.", "anchors": ["src/capacity.rs: AudioRenderCapacity::start, stop"]}
{"id": "C75", "title": "Decoding of audio files", "statement": "Decoding yields all samples of the chosen track in order, converted to the sample rate of the context, however the file is cut into packets and whatever other tracks it has; errors and changes of the layout make it fail as a whole, and it never panics.", "quantifier": "all sequences of packets, decoder results and errors", "why_tests_cant": "Files of any length with errors and foreign packets at any place; tests decode a few fixed files.", "anchors": ["src/decoding.rs: decode_media_data, MediaDecoder::next"]}
{"id": "C76", "title": "Rendering without an audio device", "statement": "With sink id none the graph is rendered at the pace of real time: never faster, without drift, not at all while suspended or closed, and the thread ends with the context.", "quantifier": "all interleavings of control calls, delays and deadlines", "why_tests_cant": "Depends on timing and on interleavings; tests run a short time on one schedule.", "anchors": ["src/io/none.rs: Callback::run, NoneBackend"]}
{"id": "C77", "title": "Microphone input", "statement": "What the device captures arrives as buffers with its channels separated, in order, without loss or silence as long as the reader keeps pace; the stream ends after the device is gone and everything was delivered.", "quantifier": "all captured data, channel counts, interleavings of device callbacks and reads", "why_tests_cant": "Needs hardware and arbitrary interleavings.", "anchors": ["src/io/microphone.rs: MicrophoneRender::render, MicrophoneStream::next"]}
{"id": "C78", "title": "Ids of audio devices", "statement": "Listed devices have distinct ids; an id selects the device it was listed for and keeps doing so when other devices come and go; unknown ids are refused.", "quantifier": "all device lists, names, hash functions", "why_tests_cant": "Depends on the hardware and on hash collisions.", "anchors": ["src/io/cpal.rs: stable_device_id, cpal_device_for_id, enumerate_devices_sync", "src/io/cubeb.rs", "src/media_devices/mod.rs"]}
{"id": "C79", "title": "Rate, channels and buffer size of streams", "statement": "The graph is rendered with the sample rate and the channel count of the stream the device plays, and the context reports them, whatever was requested and also after a change of the sink; the buffer size is a power of two near the requested latency.", "quantifier": "all devices, requests and latency hints", "why_tests_cant": "Depends on what the hardware accepts.", "anchors": ["src/io/mod.rs: buffer_size_for_latency_category", "src/io/cpal.rs: build_output, build_input", "src/io/cubeb.rs: build_output", "src/context/online.rs: try_new_inner, set_sink_id_sync"]}
{"id": "C80", "title": "Delivery of events", "statement": "An event that the engine raises (ended, message, statechange, processor error, audioprocess, sinkchange, render capacity, diagnostics) runs its callback exactly once, after the callbacks of all events raised before, with its own payload; nothing is delivered after the change to closed, with which delivery ends; raising an event neither blocks for ever nor kills the thread that raises it.", "quantifier": "all interleavings of raising threads and the event thread, all callbacks", "why_tests_cant": "Depends on the interleaving of threads and on a saturated queue.", "anchors": ["src/events.rs: EventDispatch, handle_event, run_in_thread", "src/io/mod.rs: thread_init", "src/render/processor.rs: post_message, send_ended_event, report_error", "src/render/thread.rs: set_state, RunDiagnostics", "src/context/concrete_base.rs: send_event, set_state"]}
{"id": "C81", "title": "Events of an offline rendering", "statement": "When an offline rendering returns every event raised during it was handled, in order, the last ones being the change to closed and the completion with the rendered buffer; the events of a quantum are handled, and what their callbacks send to the graph is processed, before the next quantum.", "quantifier": "all graphs, callbacks, lengths and sets of suspensions", "why_tests_cant": "All orders of events and messages of arbitrary graphs.", "anchors": ["src/context/offline.rs: start_rendering_sync, suspend_sync", "src/render/thread.rs: render_audiobuffer_sync", "src/events.rs: handle_pending_events"]}
{"id": "C82", "title": "A suspended offline context waits for resume", "statement": "From the moment the promise of suspend is resolved until resume is called no quantum is rendered and the state is suspended; resume has no effect when the context is not suspended, and panics when rendering has not started or is finished; closed is final.", "quantifier": "all interleavings of the rendering, suspend promises and resume calls", "why_tests_cant": "Interleavings of futures.", "anchors": ["src/context/offline.rs: start_rendering, suspend, resume", "src/render/thread.rs: render_audiobuffer", "src/context/concrete_base.rs: set_state"]}
{"id": "C83", "title": "getFrequencyResponse tells what the filter does", "statement": "The magnitude and phase that getFrequencyResponse of an IIR or biquad filter reports for a frequency from 0 to half the sample rate are the gain and the shift that the rendered output of a sine of this frequency tends to, for every amplitude and phase of the sine, for every quantum size and every channel. Other frequencies give NaN; slices of different lengths are refused.", "quantifier": "all stable coefficient lists, all biquad types and parameters, all frequencies, all sines", "why_tests_cant": "Relates a formula to the limit of an infinite rendering, for all coefficients.", "anchors": ["src/node/iir_filter.rs: get_frequency_response, IirFilterRenderer::process", "src/node/biquad_filter.rs: get_frequency_response, BiquadFilterRenderer::process, calculate_coefs"]}
{"id": "C84", "title": "connect and disconnect of all nodes, including the delay", "statement": "The connections the user made and did not undo are exactly those the context administers: connect adds one, the five disconnect methods remove exactly those they name, dropping an object removes its own, and reused ids bring no old connections. Calls panic exactly for the documented reasons (other context, port out of range, not connected) and then change nothing. A delay, which consists of two engine nodes, behaves like any other node, also in loops, and keeps its inner connection; a panner keeps its connection to the listener. For each removed connection the render thread gets one message.", "quantifier": "all histories of calls, any number of contexts and objects, all ports", "why_tests_cant": "All histories with reuse of ids, all combinations of filters.", "anchors": ["src/node/audio_node.rs: connect, disconnect*", "src/node/delay.rs: connect_from_output_to_input, disconnect*", "src/context/concrete_base.rs: connect, disconnect, mark_node_dropped, ensure_audio_listener_present"]}
{"id": "C85", "title": "Late events and answers stay with their node", "statement": "An event raised by a node only ever runs a handler that was set on this node, however late it is handled and whatever happened to the node since; the output buffer with which the user answers an audioprocess event only ever reaches the script processor that raised it, and is ignored if this does not exist any more.", "quantifier": "all interleavings of control threads, render thread and event thread; all sequences of creating and dropping nodes, setting and clearing handlers, events and answers", "why_tests_cant": "Needs particular interleavings of three threads together with reuse of an id.", "anchors": ["src/events.rs: EventLoop::handle_event, AudioProcessingEvent::drop", "src/render/graph.rs: render, route_message", "src/context/concrete_base.rs: AudioNodeIdProvider::get, mark_node_dropped", "src/node/script_processor.rs: set_onaudioprocess"]}
{"id": "C86", "title": "Objects handed to the engine are destroyed once, and not by the render thread", "statement": "Every object that is sent to a processor (audio buffer, curve, wave table, convolver, HRTF data, value curve) is destroyed exactly once, at the latest when the stream is gone; objects that a node no longer needs are destroyed by the garbage collector thread and never by the real-time render thread; the garbage collector thread ends after the render thread.", "quantifier": "all histories of messages, removal of nodes, turns of the garbage collector thread and the end of the stream", "why_tests_cant": "Leaks, double frees and the thread of a destructor are not visible in the rendered audio; all interleavings with the collector thread matter.", "anchors": ["src/render/thread.rs: handle_control_message, run_garbage_collector_thread, Drop for RenderThread", "src/render/graph.rs: render", "src/node/*.rs: onmessage", "src/param.rs: onmessage"]}
{"id": "C87", "title": "setTargetAtTime approaches its target exponentially", "statement": "From the start time T of a setTargetAtTime event with target v1 and time constant tau up to the next event, the value at time t is v1 + (v0 - v1) exp(-(t-T)/tau), where v0 is the value at T, up to a tolerance of 1e-10; an event with a start time in the past starts at the current time, so that the value never jumps.", "quantifier": "all values, start times, time constants, later setValueAtTime events, frames and quanta, both automation rates", "why_tests_cant": "Continuum of start times, time constants and alignments; the event spans any number of quanta.", "anchors": ["src/param.rs: compute_set_target_automation, compute_set_target_sample, handle_incoming_event"]}
{"id": "C88", "title": "setValueCurveAtTime plays the curve", "statement": "Between the start time T and T + D the value of a parameter with a value curve is the linear interpolation of the curve's equally spaced points, from the first to the last one, and the last value afterwards; a curve with a start time in the past starts at the current time.", "quantifier": "all curves, start times, durations, later setValueAtTime events, frames and quanta, both automation rates", "why_tests_cant": "Continuum of start times and durations; positions between points depend on the alignment to quanta.", "anchors": ["src/param.rs: compute_set_value_curve_automation, compute_set_value_curve_sample, handle_incoming_event"]}
{"id": "C89", "title": "AudioParam.value reports what is rendered", "statement": "AudioParam.value is the (clamped) first frame of the last rendered quantum, or the value assigned since; an assigned value is visible at once and stays until other automation changes it.", "quantifier": "all timelines, automation rates and interleavings of assignments, arrival of messages and quanta", "why_tests_cant": "Races between the two threads and all alignments of events to quanta.", "anchors": ["src/param.rs: value, set_value_raw, compute_buffer, compute_*_automation"]}
{"id": "C90", "title": "Nodes are created with the documented parameters and the values of their options", "statement": "Every constructor creates exactly the documented AudioParams, with the documented default values, nominal ranges, automation rates and rate constraints; value() is the option brought into the range; options that are NaN or infinite are refused. However the render thread interleaves the messages of the constructor with rendering, it does not panic, and from the first quantum in which the node exists its parameters have the value that the user sees. Parameters with a constrained rate refuse another rate.", "quantifier": "all node types with parameters, all option values (including NaN and infinities), sample rates, maximal delays, worklet descriptors and data, and all interleavings of messages and quanta", "why_tests_cant": "Tests run the constructor and then render; the interleavings of the two threads while a node is being set up, and the continuum of options, are out of reach.", "anchors": ["src/param.rs: audio_param_pair, set_automation_rate, set_value_raw", "src/context/concrete_base.rs: register, resolve_queued_control_msgs", "src/context/base.rs: create_audio_param", "src/node/*.rs: new", "src/spatial.rs: AudioListenerNode::new", "src/worklet.rs: AudioWorkletNode::new"]}
{"id": "C91", "title": "Attributes of nodes show what was set, and the renderer uses it", "statement": "The attributes of a node that are not AudioParams (type and wave of oscillators, buffer and loop points of buffer sources, curve and oversampling of wave shapers, response and normalization of convolvers, panner attributes, filter type) always show the acceptable value set last (respectively the first buffer or curve, or custom once a wave was set); unacceptable values are refused and change nothing. The renderer uses the values in effect after some of the calls, in order, and the current ones once all messages have arrived; the loop points are brought into the buffer whatever the order of the calls.", "quantifier": "all sequences of calls with any values (NaN and infinities included) and all interleavings with the arrival of the messages", "why_tests_cant": "The node and its renderer are on two threads with separate copies of the attributes; tests set one attribute and render at once.", "anchors": ["src/node/oscillator.rs: set_type, set_periodic_wave, onmessage", "src/node/audio_buffer_source.rs: set_buffer, set_loop*, handle_control_message, clamp_loop_boundaries, onmessage", "src/node/waveshaper.rs: set_curve, set_oversample, onmessage", "src/node/convolver.rs: set_buffer, set_normalize, onmessage", "src/node/panner.rs: new, set_*, onmessage", "src/node/biquad_filter.rs: set_type, onmessage"]}
{"id": "C92", "title": "Oversampled wave shaping is one uninterrupted stream per channel", "statement": "With oversampling, the output of each channel is the whole input of the channel upsampled, shaped with the curve and downsampled as one stream, whatever the division into render quanta; nothing of the stream is cut off, delayed or repeated.", "quantifier": "all curves, resamplers, inputs and numbers of channels", "why_tests_cant": "The resamplers have internal memory that outlives a quantum; tests check single quanta.", "anchors": ["src/node/waveshaper.rs: process, Resampler"]}
{"id": "C93", "title": "Samples that are not finite do not stay in filters", "statement": "BiquadFilterNode and IIRFilterNode never output NaN or infinity, and every output sample obeys the difference equation of the filter as soon as the inputs that the equation uses are finite again, whatever was in the input before; flushing of tiny values costs at most the smallest normal number per sample.", "quantifier": "all coefficients (varying per frame for the biquad), all inputs with NaN and infinities anywhere, all divisions into quanta and pauses", "why_tests_cant": "Recursive filters remember their past forever; tests feed finite signals.", "anchors": ["src/node/iir_filter.rs: process", "src/node/biquad_filter.rs: process"]}
{"id": "C94", "title": "The compressor recovers from samples that are not finite", "statement": "A NaN or infinite sample in the input of a DynamicsCompressorNode affects only the output of that sample; the gain of all others is the one that the finite samples ask for, and reduction stays a number.", "quantifier": "all inputs with NaN and infinities anywhere, all params in range", "why_tests_cant": "The level detector is recursive; tests feed finite signals.", "anchors": ["src/node/dynamics_compressor.rs: process, lin_to_db"]}
{"id": "C95", "title": "Settings shared by threads end up the same on both sides", "statement": "Channel count, mode and interpretation of a node and the automation rate of a parameter can be set by several threads at the same time. The accepted calls take effect in one order, consistent with each thread's order and with real time; the node shows the values of the last ones, the renderer has those of a first part of the order, and the same as the node once no call or message is under way. Both are always allowed for this kind of node, and no caller waits forever.", "quantifier": "all kinds of nodes, any number of threads and calls, all schedules", "why_tests_cant": "The claim is about all schedules of concurrent callers; tests run one, from one thread.", "anchors": ["src/node/audio_node.rs: ChannelConfig::set_count, set_count_mode, set_interpretation", "src/param.rs: AudioParam::set_automation_rate", "src/render/graph.rs: set_channel_count, set_channel_count_mode, set_channel_interpretation"]}
{"id": "C96", "title": "Whole envelopes play as scheduled", "statement": "An envelope of setValueAtTime, linear and exponential ramps and setTargetAtTime events, scheduled in time order on an a-rate parameter: from the time of each event up to the next one every frame has the value the events prescribe. A set value or the end of a ramp is held, a ramp connects the event before it to its end, an exponential approach starts from the value at which the preceding event ended, so that e.g. the release of a note starts where its decay was.", "quantifier": "all envelopes of any length, all event times and alignments to quanta, all states of the parameter before, all frames of all quanta", "why_tests_cant": "Any sequence of kinds of events, continuum of times, and the value depends on all earlier events of the envelope.", "anchors": ["src/param.rs: AudioParamProcessor::compute_buffer, compute_set_target_automation, compute_set_value_automation, compute_linear_ramp_automation, handle_incoming_event"]}
{"id": "C97", "title": "A ramp takes over from a running approach without a step", "statement": "linearRampToValueAtTime or exponentialRampToValueAtTime called while a setTargetAtTime approach is running (with nothing scheduled after it): the ramp starts at the current time, at the value the approach has reached, and leads to the given value at the given time.", "quantifier": "all approaches (values, start times, time constants), all quanta in which the ramp is scheduled, all ramps, all further events scheduled during rendering, all frames", "why_tests_cant": "Continuum of values and times; the value to start from is only known when the message is handled.", "anchors": ["src/param.rs: compute_set_target_automation (end at the block time if a ramp follows), compute_linear_ramp_automation, compute_exponential_ramp_automation"]}
{"id": "C98", "title": "The sound does not depend on the order in which connections were made", "statement": "Two programs that make the same connections in different orders (or whose render graphs hold the same nodes and connections in whatever order) and then send the same messages produce the same sound in every quantum.", "quantifier": "all graphs without cycles, all permutations of the connections, all processors (state dependent, panicking, with AudioParams), all later messages, all numbers of quanta", "why_tests_cant": "The number of orders is factorial in the number of connections, and the processing order is found by a depth first search over the connection lists.", "anchors": ["src/render/graph.rs: add_edge, order_nodes, render"]}
{"id": "C99", "title": "What is not connected to the destination is not heard", "statement": "A part of the graph that is fed by the rest but has no connection into it (meters, analysers, prepared sources) is inaudible: leaving out its creation, the connections into it, its messages and its drops does not change the sound in any quantum, whatever its processors do, even if they panic.", "quantifier": "all graphs without cycles, all such parts, all processors, all histories of messages, all numbers of quanta", "why_tests_cant": "Non-interference compares two runs for all behaviours of the inaudible part; tests can only compare chosen pairs.", "anchors": ["src/render/graph.rs: add_node, add_edge, order_nodes, render, Node::can_free", "src/render/thread.rs: handle_control_message"]}
{"id": "C100", "title": "Live playback is the offline rendering", "statement": "A running AudioContext writes to the device exactly what an offline context with the same graph and the same changes of the graph, in the same order, puts into its buffer: frame by frame and channel by channel, whatever the sizes of the device buffers. Partial quanta at the ends of callbacks lose, repeat or alter nothing, and with an untouched graph the two renderings agree without any condition on timing.", "quantifier": "all graphs and processors, all sequences of device buffer sizes (multiples of the channel count), all sequences and timings of graph messages, all lengths", "why_tests_cant": "Equality of two different rendering loops over all buffer sizes, message timings and graphs; tests use the offline loop only, as there is no device in CI.", "anchors": ["src/render/thread.rs: render_inner, render_audiobuffer_sync, render_offline_quantum, handle_control_messages"]}
{"id": "C101", "title": "Louder sources, louder sound", "statement": "If everything that the sources of a context play is multiplied by a factor, the sound of the context is multiplied by that factor, sample by sample, and nothing else changes: the same channels are silent, the same nodes are freed in the same quanta, rendering panics for the same histories.", "quantifier": "all factors other than zero, all graphs of gain, IIR filter, biquad filter, stereo panner, convolver, delay, splitter, merger and source nodes (cycles, fan-in, fan-out, all channel counts, modes and interpretations), all histories of connections, disconnections, messages and drops interleaved with rendering", "why_tests_cant": "Tests render a handful of graphs with one signal each; homogeneity is a statement about two renderings of every graph, and a level-dependent shortcut (a gate, a silence check by value) shows only for particular levels.", "anchors": ["src/render/graph.rs: render", "src/render/quantum.rs: add, mix", "src/node/gain.rs: process", "src/node/iir_filter.rs: process", "src/node/channel_splitter.rs", "src/node/channel_merger.rs"]}
{"id": "C102", "title": "Sources do not influence each other", "statement": "Several sources together sound as the sum of the sounds of each alone: a graph of linear nodes renders the sum of two inputs as the sum of the two renderings, sample by sample, also when sources start, end or fall silent at different times, so that the number of channels and the silence shortcuts of nodes differ between the renderings.", "quantifier": "all graphs of gain, IIR filter, splitter, merger and source nodes (cycles, fan-in, fan-out, any channel counts up to 32), all interleavings of graph changes with rendering, all source signals", "why_tests_cant": "A statement about three renderings of every graph; the shortcuts for silence and identical channels and the channel count changes make superposition fail only for particular combinations of starting times and layouts.", "anchors": ["src/render/graph.rs: render", "src/render/quantum.rs: add, mix", "src/node/gain.rs: process", "src/node/iir_filter.rs: process", "src/node/channel_splitter.rs", "src/node/channel_merger.rs"]}
{"id": "C103", "title": "Pausing inserts silence and loses nothing", "statement": "When a context is suspended and resumed (or closed) while it plays, the device gets the same audio as without the interruption, only with gaps of silence in between: no frame is lost, repeated or rendered differently because of a pause, also when the graph is changed during the pause and when the callbacks of the device do not fit the render quantum.", "quantifier": "all graphs, all sizes and contents of device buffers, all numbers of channels, all moments at which suspend, resume, close and graph messages arrive", "why_tests_cant": "Tests suspend at a few moments with one buffer size; the pending rest of a quantum, the clock and the handling of messages inside a callback interact for every size and moment.", "anchors": ["src/render/thread.rs:136-252", "src/render/thread.rs:441-532", "src/context/online.rs"]}
{"id": "C104", "title": "Dropped nodes are released", "statement": "When the application has dropped the handles of a part of the graph and the sound of that part has ended, the render thread lets go of every node of it after a finite number of quanta, with its parameters, and hands every id back for reuse. The rest of the application may go on creating, connecting and dropping nodes meanwhile. Nothing leaks.", "quantifier": "all graphs and processors, all parts whose handles are dropped, all concurrent activity of the rest of the application", "why_tests_cant": "A leak shows only in the long run and depends on the shape of the dropped part, on which node ends first, on parameters that never end by themselves, and on what is created meanwhile; a test drops one or two nodes.", "anchors": ["src/render/graph.rs:87-115", "src/render/graph.rs:490-591"]}
{"id": "C105", "title": "Nodes end by themselves", "statement": "Every built-in processor that must outlive its input (a convolver, a compressor, an HRTF panner, a filter, a delay) or that plays by itself (the scheduled sources) asks to be kept only for a bounded time: once its input stays silent, or once its stop time or the end of its buffer has passed, `process` returns false after a number of quanta that the settings determine. So dropped nodes of these kinds are released.", "quantifier": "all settings, impulse responses, buffers, coefficients, stop times; all states the processors can reach; all parameter values meanwhile", "why_tests_cant": "A processor that never ends leaks only in the long run; whether it ends depends on the reached state, on the silence flag of the input and on every later parameter value.", "anchors": ["src/render/processor.rs:124-139", "src/node/convolver.rs:344-490", "src/node/dynamics_compressor.rs:331-478", "src/node/panner.rs:686-904", "src/node/iir_filter.rs:324-413", "src/node/audio_buffer_source.rs:439-866", "src/node/constant_source.rs:164-235", "src/node/oscillator.rs:380-470"]}
{"id": "C106", "title": "Echoes: a delay in a feedback loop", "statement": "When the output of a delay node goes through a gain back into the delay, every frame of the output is what went into the delay one delay time earlier: the input plus the output times the gain. So with a constant delay of D frames and gain g the k-th echo of the input sounds after k*D frames with the factor g^(k-1); the loop never exceeds M/(1-g) for inputs up to M, and dies away by the factor g per delay when the input has ended. Delays shorter than a quantum count as a quantum.", "quantifier": "all inputs and channel counts (constant in the loop), all delay curves up to the maximum of the node, all gain curves, all lengths of time", "why_tests_cant": "The recurrence goes through a ring buffer that is read before it is written in the same quantum, for every size of the ring, every position and every fraction of a frame; a test hears a few echoes of one click.", "anchors": ["src/node/delay.rs:283-743", "src/render/graph.rs:331-487", "src/node/gain.rs:135-199"]}
{"id": "C107", "title": "Nodes compute with the parameter values of the same quantum", "statement": "When a node is processed, the AudioParam values it reads are those the parameter has computed in this very quantum, from its automation and from the signals that the nodes connected to it have produced in this very quantum: modulation has no latency of a quantum. For a gain node the output at every frame is the input at this frame times (automation value at this frame + sum of the modulating signals at this frame, limited to the nominal range); for a k-rate parameter the values of the first frame count.", "quantifier": "all graphs, all kinds of processors (data flow), all automation values, all numbers and layouts of modulating signals, all quanta", "why_tests_cant": "The parameter is a separate node that its owner reads behind the back of the edges; that it is always processed before depends on the order computed for every graph and every history of edits, and on the parameter not being released in between.", "anchors": ["src/render/graph.rs:331-591", "src/render/processor.rs:186-230", "src/param.rs:673-797", "src/node/gain.rs:144-199", "src/context/concrete_base.rs:461-471"]}
{"id": "C108", "title": "The same automation later gives the same values", "statement": "Automation does not depend on the time of day: when the same sequence of scheduling calls, value changes, rate changes and rendered quanta is repeated some quanta later, with all times later by as much, the parameter has the same value in every frame and the same attribute value, that much later, and panics if and only if it did before.", "quantifier": "all sequences of calls of all scheduling methods including cancel and hold, interleaved with rendering in any way, all delays by whole quanta, all frames", "why_tests_cant": "Tests schedule automation at the start of a context; whether some comparison or formula uses an absolute time somewhere cannot be seen by trying a few start times.", "anchors": ["src/param.rs:63-120", "src/param.rs:403-617", "src/param.rs:799-1047", "src/param.rs:1050-1500", "src/param.rs:1506-1600"]}
{"id": "C109", "title": "The device plays the graph", "statement": "Whatever an application does with nodes and connections, from any number of threads and at any moment, and whatever the sizes of the callbacks of the audio device: there is one order in which the operations happen and render quanta take place, with the operations in the order in which they were made, such that the device gets exactly the output of the destination for these quanta, one after the other, at the right frame numbers, interleaved, with gaps of silence only if the context is suspended or closed. All of every device buffer is written, and no render thread panics unless a processor does.", "quantifier": "all histories of operations of all threads, suspends and resumes, all sizes of device buffers (multiples of the channel count), all processors, all numbers of channels", "why_tests_cant": "Tests render small graphs offline and write single callbacks separately; how messages, life cycle of nodes, partial quanta and pauses interact cannot be enumerated.", "anchors": ["src/render/thread.rs:136-252", "src/render/thread.rs:441-532", "src/render/graph.rs:490-591", "src/context/concrete_base.rs:232-508"]}
{"id": "C110", "title": "A piece can be played at any time", "statement": "If an application waits, and then does what it would have done at once - create, connect, disconnect and drop nodes, start and stop sources, schedule automation, between the same render quanta - with all times later by the duration of the wait, the context plays silence and then exactly the same sound. Whether the render thread panics does not depend on the wait.", "quantifier": "all histories of operations of an application with constant sources, oscillators, buffer sources, AudioParams, gains and arbitrary other nodes that do not look at the clock; all waits of whole quanta; all sample rates", "why_tests_cant": "Tests run in the first second of a context. That nothing depends on the absolute time concerns every moment of every piece and every comparison of times in the engine.", "anchors": ["src/node/constant_source.rs:183-288", "src/node/oscillator.rs:365-676", "src/node/audio_buffer_source.rs:422-879", "src/param.rs:686-1600", "src/render/graph.rs:490-591"]}
{"id": "C111", "title": "Rendering solves the equations of the graph", "statement": "In every quantum of a graph without cycles, the output of every node is its processor applied to the sum, per input, of the outputs that the connected nodes have in the same quantum and to the values its parameters have in the same quantum. These equations have exactly one solution, in whatever order the nodes are listed; the rendered output is that of the destination in this solution, and the nodes after the quantum are those of the solution without the nodes that are of no use any more (and without the connections to them).", "quantifier": "all graphs without cycles whose order is complete, all processors, all numbers of nodes, inputs, outputs and connections, every listing of the nodes", "why_tests_cant": "A test checks the output of one graph in one processing order. That the loop with its queue of pending inputs, removals and resets computes the meaning of every graph is a statement about all graphs.", "anchors": ["src/render/graph.rs:87-120", "src/render/graph.rs:418-591", "src/render/processor.rs:186-200"]}
{"id": "C112", "title": "A score sounds as written", "statement": "For a graph of notes (a source into a gain node whose gain is an envelope, all gain nodes into the destination) and any sequence of messages to them between the render quanta (start, stop, automation events), rendering does not panic and every frame of the output is the sum over the notes of what the source plays at that time times the value of the envelope at that time. What a source plays and the values of an envelope only depend on the messages to them, not on the other notes. For constant sources: the offset, between the scheduled start and stop; for envelopes: the scheduled ramps, held values and approaches.", "quantifier": "all numbers of notes, all sources (constant, oscillator, buffer, others) with mono output, all sequences of quanta and messages, all frames", "why_tests_cant": "Tests render a few notes for a few quanta. Here source scheduling, automation, mixing, the order of processing and message delivery act together over unbounded time; the claim is about all scores.", "anchors": ["src/render/graph.rs:418-591", "src/render/thread.rs:136-252", "src/render/processor.rs:186-200", "src/param.rs:686-797", "src/node/gain.rs:135-199", "src/node/constant_source.rs:183-288", "src/node/destination.rs:140-163"]}
{"id": "C113", "title": "A program of notes plays as written", "statement": "An application creates notes (each a ConstantSourceNode into a GainNode into the destination), sets their start and stop times and schedules set values and ramps on offset and gain, in any order, and then renders. Nothing panics; the rendered buffer has two channels of the requested length, and every frame of both channels is the sum over the notes of the envelope of the offset (within start and stop) times the envelope of the gain, up to the threshold of the gain node (1e-6 times the sum of the source magnitudes). The envelopes are given by the events in time order. The same holds for every frame that a live context writes to its device, whatever the sizes of the buffers of the device, if the notes are set up before the first callback.", "quantifier": "all numbers of notes, all offsets, gains, start and stop times, all schedules of set values and ramps in any order of the calls, all lengths, all sizes of device buffers, all frames", "why_tests_cant": "Tests play a few notes of a few quanta. This is one statement from the calls of the application (constructors, connections, scheduling) through ids, messages, the order of processing, automation, mixing and the copy to the output buffer, for all programs of this form.", "anchors": ["src/context/concrete_base.rs:232-270", "src/context/base.rs:320-336", "src/node/constant_source.rs:113-288", "src/node/gain.rs:78-199", "src/param.rs:686-797", "src/render/graph.rs:92-591", "src/render/thread.rs:136-302", "src/render/thread.rs:441-532", "src/context/offline.rs:147-193"]}
{"id": "C114", "title": "A program of oscillators and constant sources plays as written", "statement": "An application creates notes, each an OscillatorNode or a ConstantSourceNode into a GainNode into the destination, in any number and order; it sets start and stop times and schedules set values and ramps, in any order, on frequency, detune, offset and gain; then it renders. Nothing panics; the buffer has two channels of the requested length, and every frame of both is the sum over the notes of the wave of the source times the envelope of the gain, up to the threshold of the gain node (1e-6 times the sum of the source magnitudes). The wave of an oscillator at a frame is its waveform (sine table, square, sawtooth, triangle or the periodic wave) at the phase that is the sum of the computed frequencies of the frames since the start, zero before the start, from the stop on, and where the frequency is at or beyond Nyquist. The same holds for every frame that a live context writes to its device, whatever the sizes of its buffers, if the notes are set up before the first callback.", "quantifier": "all numbers and orders of notes, all oscillator types and periodic waves, all values, start and stop times, all schedules of set values and ramps in any order of the calls, all lengths, all sizes of device buffers, all frames", "why_tests_cant": "Tests render one oscillator with a constant frequency for a few quanta. This is one statement from the calls of the application through ids, messages, order of processing, automation of every parameter, phase accumulation across quanta, mixing and the copy to the output buffer, for all programs of this form.", "anchors": ["src/node/oscillator.rs:179-676", "src/node/constant_source.rs:113-288", "src/node/gain.rs:78-199", "src/context/concrete_base.rs:232-270", "src/context/base.rs:320-336", "src/param.rs:686-797", "src/render/graph.rs:92-591", "src/render/thread.rs:205-470"]}
{"id": "C115", "title": "A k-rate parameter has in every quantum the value of its automation at the beginning of the quantum", "statement": "An AudioParam with automation rate k has in every render quantum one value for all frames: the value that the scheduled events give at the time at which the quantum begins (set values hold, linear and exponential ramps interpolate between the events before and after). In which order the events were scheduled before rendering does not matter. For all events (also targets, value curves, cancellations): if an a-rate parameter with the same history does not panic, then a k-rate parameter does not, and the value of a k-rate parameter in a quantum is that of the a-rate parameter in the first frame of the quantum. Excluded are values that are set exactly at the beginning of a quantum: they take effect one quantum late unless another event falls into the quantum before.", "quantifier": "all schedules of set values and ramps in any order of the calls, all quanta, all sample rates; for the comparison with a-rate all histories of events and quanta and any arithmetic of values", "why_tests_cant": "Tests render a k-rate parameter for some quanta with events at chosen times. That the one value of each quantum is the automation at its first instant, for all schedules, needs an invariant of the timeline across quanta.", "anchors": ["src/param.rs:1506-1600", "src/param.rs:1050-1426", "src/param.rs:686-727"]}
{"id": "C116", "title": "A program of notes with buffer sources, oscillators and constant sources plays as written, offline and live", "statement": "An application creates any number of notes (a constant source, an oscillator or an AudioBufferSourceNode with a mono buffer, each through its own gain into the stereo destination), sets playback rate, detune, loop points, offset, duration, start and stop times and schedules set values and ramps on all parameters. Nothing panics, and at every frame both channels contain the sum over the notes of what the source must play there times the envelope of its gain: a buffer source plays its buffer (interpolated linearly) at the position that follows from start time, offset, the sum of the computed playback rates of the quanta so far and the loop. This holds for an offline rendering of any length, and for a live context with any sizes of the device's buffers.", "quantifier": "all lists of notes, all buffers of one channel and buffer sample rates, all playback parameters and automation within the stated exclusions, all lengths, all sizes of device buffers", "why_tests_cant": "Tests play single buffer sources with few settings and compare some samples. The claim composes the control thread, the message queue, the graph, k-rate automation, the playback position over all quanta and mixing for all programs.", "anchors": ["src/node/audio_buffer_source.rs:160-265", "src/node/audio_buffer_source.rs:422-879", "src/param.rs:686-727", "src/node/gain.rs:135-199", "src/context/concrete_base.rs:150-230"]}
{"id": "C117", "title": "Oscillators stay in tune although the phase is rounded", "statement": "An oscillator accumulates its phase in f64, with a rounding in every frame. Still, however long it plays, with whatever automation of frequency and detune, each sample of a shape without jumps (sine, triangle, a custom wave) is that of an oscillator with exact arithmetic up to M*u*((1+B)*(5+3n)+2), where u is the unit of rounding (2^-53), n the number of frames since the start time, B a bound of the phase increments (1/2 up to Nyquist), and M how much the shape can rise or fall per period (4 for the triangle). The error grows linearly with the time, not faster, and it is zero before the start. A sawtooth and a square jump, but their correction at the jump makes them continuous: for frequencies that are positive, with phase increments of at least A, the same holds with M = 9/A and 24/A. Triangle, sawtooth and square oscillators never panic by rounding.", "quantifier": "all roundings of relative error u <= 1/8, all sample rates, start and stop times, all frequencies and detunes per frame, all shapes without jumps, sawtooth and square at positive frequencies, all numbers of quanta", "why_tests_cant": "Tests render a second or less and compare with a tolerance. An error that grows quadratically, or a loss of bits at an unrolling of the phase, is only audible after minutes or hours and depends on the frequencies.", "anchors": ["src/node/oscillator.rs:423-459", "src/node/oscillator.rs:513-558", "src/node/oscillator.rs:572-675"]}
{"id": "C118", "title": "Double precision scheduling: at most one frame off, and handover without gap or overlap", "statement": "With times in f64 (the time of a quantum is frame/sampleRate, that of a frame is accumulated), constant sources and oscillators start and stop at most one frame off the requested time, for the first 10^13 frames (six years at 48 kHz). When one of them stops at a time t and another one starts at t, exactly one of them plays at every frame, for every t: two constant sources together play what a single one plays. (For buffer sources this is false: a frame can be lost or played twice.)", "quantifier": "all roundings to nearest, all sample rates, start and stop times, histories of calls, quanta and frames", "why_tests_cant": "Tests start and stop at a few times that are exact or compare with a tolerance. Whether a frame is lost or doubled depends on the last bit of accumulated times, for every frame number and sample rate.", "anchors": ["src/node/constant_source.rs:190-266", "src/node/oscillator.rs:365-473", "src/node/oscillator.rs:513-525", "src/render/thread.rs:357-365", "src/node/audio_buffer_source.rs:644-672"]}
{"id": "C119", "title": "Mixing and summing in single precision is accurate", "statement": "The input of a node, summed and up- or down-mixed in f32, has the same channels as the sum of exact arithmetic, and each sample differs from it by at most (1+u)^(5n)-1 times the corresponding sum of the absolute values, where n is the number of connections and u the relative error of a rounding (2^-24); for a single signal by (1+u)^4-1. So the input is the sum that the Web Audio specification prescribes up to this error, and the order of the connections changes it at most by twice the error (but it does change it).", "quantifier": "all roundings, channel count modes, interpretations, numbers of channels and connections, samples", "why_tests_cant": "Tests compare a few sums of small numbers that are exact in f32. That no combination of layouts and connections cancels or amplifies rounding errors is a statement about all samples.", "anchors": ["src/render/quantum.rs:113-120", "src/render/quantum.rs:274-505", "src/render/quantum.rs:532-569"]}
{"id": "C120", "title": "A delay node delays in every graph", "statement": "In any graph and any sequence of quanta, whatever is connected, disconnected, created or freed around it, the output of a delay node at every frame is what was sent to its input earlier: the input at this frame minus the delay, between frames on the straight line, mixed to the channel layouts of later inputs, and silence before it was created. If the node is in a cycle (now or earlier) the delay is at least one quantum. Other delay nodes do not disturb it, and its two halves never panic.", "quantifier": "all graphs, all other processors, all changes of the graph between quanta that keep the delay node and its handle, all positions of its halves in the order of processing, all input signals and channel layouts, all delay curves within the maximum", "why_tests_cant": "Tests render a source, a delay and the destination; the two halves of the node are separate nodes of the graph whose order, inputs and channel counts depend on everything else in the graph, and they share memory with a clock that only a proof over all graphs and histories can follow.", "anchors": ["src/node/delay.rs:283-368", "src/node/delay.rs:376-488", "src/node/delay.rs:491-743", "src/render/graph.rs:489-591"]}
{"id": "C121", "title": "Levels by powers of two commute with mixing, to the bit", "statement": "A gain of plus or minus a power of two (0.5, 2, -1, ...) in front of every source of an input, or behind the input, gives the same samples to the last bit, although mixing between channel layouts and summing round every operation to single precision. The same holds in front of or behind a biquad or IIR filter, in spite of the feedback of rounded values. In particular inverting all sources inverts the result exactly. For other factors this is false: three times louder sources do not give a three times louder sum to the bit.", "quantifier": "all powers of two, both signs, all precisions, all numbers of sources, all channel layouts, modes and interpretations, all samples, all coefficients of filters (per frame for the biquad filter), all numbers of frames", "why_tests_cant": "Tests compare with a tolerance, or compare a few samples that are sums of few bits, for which every factor commutes. Whether an operation adds an offset, rounds on an absolute grid or treats signs differently shows in the last bit of some samples only.", "anchors": ["src/render/quantum.rs:113-120", "src/render/quantum.rs:274-505", "src/render/quantum.rs:532-569", "src/node/gain.rs:183-190", "src/node/biquad_filter.rs:864-894", "src/node/iir_filter.rs:385-409"]}
